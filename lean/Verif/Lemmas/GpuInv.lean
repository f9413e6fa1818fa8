import Verif.Lemmas.GpuRep

/-!
# The pool and its lists

`GRep s M F I W areas X Z`: the pool `s` holds the blocks `M` in the order of their addresses, with the free blocks `F`, the used blocks `I` and the spare descriptors `W`.
The block `X`, if any, is about to become free; the blocks reach the address `Z.1` of the slab that ends at `Z.2`.
-/

namespace Hila

open Function

/-- The lists and their links. -/
structure GRep (s : GPool) (M F I W : List ℕ) (areas : List (ℕ × ℕ)) (X : Option ℕ) (Z : ℕ × ℕ) : Prop where
  mem : DList s.up s.down s.memory M
  fre : DList s.next s.prev s.freeHead F
  use : DList s.next s.prev s.useHead I
  unu : SList s.up s.unused W
  nd : (M ++ W).Nodup
  lt : ∀ b ∈ M ++ W, b < s.count
  ndF : F.Nodup
  ndI : I.Nodup
  flagF : ∀ b, b ∈ F ↔ b ∈ M ∧ s.isFree b = true
  flagI : ∀ b, b ∈ I ↔ b ∈ M ∧ s.isFree b = false ∧ s.size b ≠ 0 ∧ X ≠ some b
  pos : ∀ b ∈ M, s.isFree b = true → s.size b ≠ 0
  ne : M ≠ []
  tile : ∃ x n r, areas = (x, n) :: r ∧ tileRun s.ptr s.size M (x, x + n, r) = some (Z.1, Z.2, [])
  len : s.freeLen = F.length
  sum : s.used = (I.map s.size).sum

theorem GRep.ndM {s : GPool} {M F I W : List ℕ} {areas : List (ℕ × ℕ)} {X : Option ℕ} {Z : ℕ × ℕ} (h : GRep s M F I W areas X Z) : M.Nodup :=
  (List.nodup_append.1 h.nd).1

theorem GRep.notF {s : GPool} {M F I W : List ℕ} {areas : List (ℕ × ℕ)} {X : Option ℕ} {Z : ℕ × ℕ} (h : GRep s M F I W areas X Z) {b : ℕ} (hb : b ∈ I) : b ∉ F := by
  intro e
  have h1 := ((h.flagF b).1 e).2
  have h2 := ((h.flagI b).1 hb).2.1
  rw [h1] at h2
  exact absurd h2 (by simp)

theorem nodup_le_count {l : List ℕ} {n : ℕ} (hn : l.Nodup) (hl : ∀ b ∈ l, b < n) : l.length ≤ n := by
  have h1 : l.toFinset ⊆ Finset.range n := fun b hb => Finset.mem_range.2 (hl b (List.mem_toFinset.1 hb))
  have h2 := Finset.card_le_card h1
  rwa [List.toFinset_card_of_nodup hn, Finset.card_range] at h2

theorem GRep.lenM {s : GPool} {M F I W : List ℕ} {areas : List (ℕ × ℕ)} {X : Option ℕ} {Z : ℕ × ℕ} (h : GRep s M F I W areas X Z) : M.length ≤ s.count :=
  nodup_le_count h.ndM fun b hb => h.lt b (by simp [hb])

theorem GRep.lenF {s : GPool} {M F I W : List ℕ} {areas : List (ℕ × ℕ)} {X : Option ℕ} {Z : ℕ × ℕ} (h : GRep s M F I W areas X Z) : F.length ≤ s.count :=
  nodup_le_count h.ndF fun b hb => h.lt b (by simp [((h.flagF b).1 hb).1])

theorem GRep.lenI {s : GPool} {M F I W : List ℕ} {areas : List (ℕ × ℕ)} {X : Option ℕ} {Z : ℕ × ℕ} (h : GRep s M F I W areas X Z) : I.length ≤ s.count :=
  nodup_le_count h.ndI fun b hb => h.lt b (by simp [((h.flagI b).1 hb).1])

/-- The descriptors of `s'` besides `r` are those of `s`. -/
structure GSame (s s' : GPool) (r : ℕ) : Prop where
  ptr : s'.ptr = update s.ptr r 0
  size : s'.size = s.size
  isFree : s'.isFree = s.isFree
  memory : s'.memory = s.memory
  freeHead : s'.freeHead = s.freeHead
  useHead : s'.useHead = s.useHead
  freeLen : s'.freeLen = s.freeLen
  used : s'.used = s.used
  maxUsed : s'.maxUsed = s.maxUsed
  total : s'.total = s.total
  started : s'.started = s.started
  slabs : s'.slabs = s.slabs

/-- A descriptor is taken from the spare ones or from the system. -/
theorem gpGet_rep {s : GPool} {M F I W : List ℕ} {areas : List (ℕ × ℕ)} {X : Option ℕ} {Z : ℕ × ℕ} (h : GRep s M F I W areas X Z) :
    ∃ r s' W', gpGet s = some (r, s') ∧ GRep s' M F I W' areas X Z ∧ r ∉ M ∧ r ∉ W' ∧ r < s'.count ∧ GSame s s' r := by
  -- after more descriptors came from the system
  have key : ∀ (t : GPool) (r : ℕ) (W' : List ℕ), GRep t M F I (r :: W') areas X Z → gpGet t = some (r,
      { t with unused := t.up r, ptr := update t.ptr r 0, up := update t.up r none, down := update t.down r none
               next := update t.next r none, prev := update t.prev r none }) ∧
      GRep { t with unused := t.up r, ptr := update t.ptr r 0, up := update t.up r none, down := update t.down r none
                    next := update t.next r none, prev := update t.prev r none } M F I W' areas X Z ∧ r ∉ M ∧ r ∉ W' ∧ r < t.count := by
    intro t r W' h
    have hnd := List.nodup_append.1 h.nd
    have hr : r ∉ M := fun e => hnd.2.2 r e r (by simp) rfl
    have hrW : r ∉ W' := (List.nodup_cons.1 hnd.2.1).1
    obtain ⟨hu, hW⟩ := h.unu
    have hM : ∀ a ∈ M, a ≠ r := fun a ha e => hr (e ▸ ha)
    refine ⟨by unfold gpGet; simp [hu], ?_, hr, hrW, h.lt r (by simp)⟩
    exact {
      mem := h.mem.congr fun a ha => by simp [update_of_ne (hM a ha)]
      fre := h.fre.congr fun a ha => by simp [update_of_ne (hM a ((h.flagF a).1 ha).1)]
      use := h.use.congr fun a ha => by simp [update_of_ne (hM a ((h.flagI a).1 ha).1)]
      unu := hW.congr fun a ha => by simp [update_of_ne (fun e : a = r => hrW (e ▸ ha))]
      nd := h.nd.sublist (List.Sublist.append_left (List.sublist_cons_self _ _) _)
      lt := fun b hb => h.lt b (by
        rcases List.mem_append.1 hb with hb | hb
        · simp [hb]
        · simp [hb])
      ndF := h.ndF
      ndI := h.ndI
      flagF := h.flagF
      flagI := h.flagI
      pos := h.pos
      ne := h.ne
      tile := by
        obtain ⟨x, n, rr, h1, h2⟩ := h.tile
        refine ⟨x, n, rr, h1, ?_⟩
        rw [← h2]
        exact (tileRun_congr _ fun a ha => by simp [update_of_ne (hM a ha)]).symm
      len := h.len
      sum := h.sum }
  cases W with
  | cons r W' =>
    obtain ⟨h1, h2, h3, h4, h5⟩ := key s r W' h
    exact ⟨r, _, W', h1, h2, h3, h4, h5, ⟨rfl, rfl, rfl, rfl, rfl, rfl, rfl, rfl, rfl, rfl, rfl, rfl⟩⟩
  | nil =>
    have hu : s.unused = none := h.unu
    have hM : ∀ a ∈ M, a < s.count := fun a ha => h.lt a (by simp [ha])
    have hup : ∀ a ∈ M, (gpMore s).up a = s.up a := fun a ha => by
      have := hM a ha
      show (if s.count ≤ a ∧ a < s.count + 999 then some (a + 1) else if a = s.count + 999 then none else s.up a) = s.up a
      rw [if_neg (by omega), if_neg (by omega)]
    have h' : GRep (gpMore s) M F I (List.range' s.count 1000) areas X Z := {
      mem := h.mem.congr fun a ha => ⟨(hup a ha).symm, rfl⟩
      fre := h.fre
      use := h.use
      unu := sList_range (e := s.count + 999) (by simp [gpMore]) 999 s.count rfl fun i h1 h2 => by simp [gpMore, h1, h2]
      nd := by
        refine List.nodup_append.2 ⟨h.ndM, List.nodup_range', fun a ha b hb => ?_⟩
        have := hM a ha
        have := (List.mem_range'_1.1 hb).1
        omega
      lt := fun b hb => by
        show b < s.count + 1000
        rcases List.mem_append.1 hb with hb | hb
        · have := hM b hb
          omega
        · exact (List.mem_range'_1.1 hb).2
      ndF := h.ndF
      ndI := h.ndI
      flagF := h.flagF
      flagI := h.flagI
      pos := h.pos
      ne := h.ne
      tile := h.tile
      len := h.len
      sum := h.sum }
    rw [show List.range' s.count 1000 = s.count :: List.range' (s.count + 1) 999 from List.range'_succ ..] at h'
    obtain ⟨h1, h2, h3, h4, h5⟩ := key (gpMore s) s.count _ h'
    have hg : gpGet s = gpGet (gpMore s) := by
      have e : (gpMore s).unused ≠ none := by simp [gpMore]
      unfold gpGet
      rw [if_pos hu, if_neg e]
    exact ⟨s.count, _, _, by rw [hg]; exact h1, h2, h3, h4, h5, ⟨rfl, rfl, rfl, rfl, rfl, rfl, rfl, rfl, rfl, rfl, rfl, rfl⟩⟩

/-- A free block of the right size is used. -/
theorem gpTake_exact {s : GPool} {M F I W : List ℕ} {areas : List (ℕ × ℕ)} {Z : ℕ × ℕ} {p : ℕ} (h : GRep s M F I W areas none Z) (hp : p ∈ F) :
    ∃ s', gpTake s p (s.size p) = some (s', s.ptr p) ∧ GRep s' M (F.erase p) (p :: I) W areas none Z ∧ s'.ptr = s.ptr ∧ s'.size = s.size ∧
      s'.isFree = update s.isFree p false ∧ s'.slabs = s.slabs ∧ s'.total = s.total ∧ s'.started = s.started := by
  unfold gpTake
  rw [if_neg (by omega)]
  have hpM := ((h.flagF p).1 hp).1
  have hpf := ((h.flagF p).1 hp).2
  have hpI : p ∉ I := fun e => h.notF e hp
  refine ⟨_, rfl, ?_, rfl, rfl, rfl, rfl, rfl, rfl⟩
  have hI : DList (gpRemove s.next s.prev s.freeHead p).1 (gpRemove s.next s.prev s.freeHead p).2.1 s.useHead I :=
    h.use.congr fun a ha => gpRemove_other h.fre h.ndF hp (h.notF ha)
  have hF := h.fre.erase h.ndF hp
  exact {
    mem := h.mem
    fre := hF.congr fun a ha => gpInsert_other hI (fun e => by rw [e] at ha; exact (h.ndF.mem_erase_iff.1 ha).1 rfl)
      fun e => h.notF e (List.mem_of_mem_erase ha)
    use := hI.insert h.ndI hpI
    unu := h.unu
    nd := h.nd
    lt := h.lt
    ndF := h.ndF.erase _
    ndI := List.nodup_cons.2 ⟨hpI, h.ndI⟩
    flagF := fun b => by
      rw [h.ndF.mem_erase_iff, h.flagF]
      by_cases e : b = p
      · simp [e, gpUnfree]
      · simp [e, gpUnfree, update_of_ne e]
    flagI := fun b => by
      rw [List.mem_cons, h.flagI]
      by_cases e : b = p
      · have := h.pos p hpM hpf
        simp [e, gpUnfree, hpM, this]
      · simp [e, gpUnfree, update_of_ne e]
    pos := fun b hb hf => by
      by_cases e : b = p
      · simp [e, gpUnfree] at hf
      · exact h.pos b hb (by simpa [gpUnfree, update_of_ne e] using hf)
    ne := h.ne
    tile := h.tile
    len := by
      rw [List.length_erase_of_mem hp]
      show s.freeLen - 1 = _
      rw [h.len]
    sum := by
      show s.used + s.size p = _
      rw [List.map_cons, List.sum_cons, h.sum]
      show (I.map s.size).sum + s.size p = s.size p + (I.map s.size).sum
      omega }

/-- A part of a free block is used. -/
theorem gpTake_split {s : GPool} {M1 M2 F I W : List ℕ} {areas : List (ℕ × ℕ)} {Z : ℕ × ℕ} {p req : ℕ} (h : GRep s (M1 ++ p :: M2) F I W areas none Z) (hp : p ∈ F)
    (h0 : 0 < req) (hs : req < s.size p) :
    ∃ s' b W', gpTake s p req = some (s', s.ptr p + s.size p - req) ∧ GRep s' (M1 ++ p :: b :: M2) F (b :: I) W' areas none Z ∧ b ∉ M1 ++ p :: M2 ∧
      s'.ptr = update s.ptr b (s.ptr p + s.size p - req) ∧ s'.size = update (update s.size b req) p (s.size p - req) ∧
      s'.isFree = update s.isFree b false ∧ s'.slabs = s.slabs ∧ s'.total = s.total ∧ s'.started = s.started := by
  obtain ⟨b, t, W', hg, ht, hbM, hbW, hbc, hsame⟩ := gpGet_rep h
  have hpf := ((h.flagF p).1 hp).2
  have hbp : b ≠ p := fun e => hbM (by simp [e])
  have hbF : b ∉ F := fun e => hbM ((h.flagF b).1 e).1
  have hbI : b ∉ I := fun e => hbM ((h.flagI b).1 e).1
  have hpI : p ∉ I := fun e => h.notF e hp
  have e1 : t.ptr p = s.ptr p := by rw [hsame.ptr, update_of_ne hbp.symm]
  have e2 : t.size = s.size := hsame.size
  unfold gpTake gpSplit
  rw [if_pos hs, hg]
  simp only [Option.map_some]
  have hsz : update t.size b req p = s.size p := by rw [update_of_ne hbp.symm, e2]
  have hret : update t.ptr b (t.ptr p + t.size p - req) b = s.ptr p + s.size p - req := by rw [update_self, e1, e2]
  rw [hret]
  refine ⟨_, b, W', rfl, ?_, hbM, ?_, ?_, ?_, ?_, ?_, ?_⟩
  · exact {
      mem := by
        have := ht.mem.after ht.ndM hbM
        have e : update (update t.up b (t.up p)) p (some b) b = t.up p := by rw [update_of_ne hbp, update_self]
        simp only [e]
        exact this
      fre := ht.fre.congr fun a ha => gpInsert_other ht.use (fun e => hbF (e ▸ ha)) fun e => ht.notF e ha
      use := ht.use.insert ht.ndI hbI
      unu := ht.unu.congr fun a ha => by
        have n1 : a ≠ b := fun e => hbW (e ▸ ha)
        have n2 : a ≠ p := fun e => (List.nodup_append.1 ht.nd).2.2 p (by simp) a ha e.symm
        simp [update_of_ne n1, update_of_ne n2]
      nd := by
        have h1 : ((M1 ++ p :: M2) ++ W').Nodup := ht.nd
        have h2 : b ∉ (M1 ++ p :: M2) ++ W' := by
          rw [List.mem_append, not_or]
          exact ⟨hbM, hbW⟩
        have h3 : (b :: ((M1 ++ p :: M2) ++ W')).Nodup := List.nodup_cons.2 ⟨h2, h1⟩
        refine (List.Perm.nodup_iff ?_).1 h3
        have : (M1 ++ p :: b :: M2) ++ W' = (M1 ++ [p]) ++ b :: (M2 ++ W') := by simp
        rw [this]
        refine List.Perm.trans ?_ List.perm_middle.symm
        simp
      lt := fun a ha => by
        by_cases e : a = b
        · rw [e]; exact hbc
        · refine ht.lt a ?_
          simp only [List.mem_append, List.mem_cons] at ha ⊢
          tauto
      ndF := ht.ndF
      ndI := List.nodup_cons.2 ⟨hbI, ht.ndI⟩
      flagF := fun a => by
        have := ht.flagF a
        by_cases e : a = b
        · subst e
          simp [hbF]
        · simp only [update_of_ne e]
          rw [this]
          simp [e]
      flagI := fun a => by
        have := ht.flagI a
        simp only [List.mem_cons, this]
        by_cases e : a = b
        · subst e
          simp [hbp]
          omega
        · by_cases e' : a = p
          · subst e'
            simp [hbp.symm, hsame.isFree, hpf]
          · simp [e, update_of_ne e, update_of_ne e']
      pos := fun a ha hf => by
        by_cases e : a = b
        · subst e
          simp at hf
        · by_cases e' : a = p
          · subst e'
            simp only [update_self, hsz]
            omega
          · simp only [update_of_ne e, update_of_ne e'] at hf ⊢
            refine ht.pos a ?_ hf
            simp only [List.mem_append, List.mem_cons] at ha ⊢
            tauto
      ne := by simp
      tile := by
        obtain ⟨x, n, rr, h1, h2⟩ := ht.tile
        refine ⟨x, n, rr, h1, ?_⟩
        have := tileRun_split h2 h0 (by rw [e2]; exact hs) ht.ndM hbM
        simp only [hsz]
        rw [e2] at this ⊢
        exact this
      len := ht.len
      sum := by
        simp only [List.map_cons, List.sum_cons]
        rw [update_of_ne hbp, update_self, hsame.used, h.sum]
        have : I.map (update (update t.size b req) p (update t.size b req p - req)) = I.map s.size := by
          refine List.map_congr_left fun a ha => ?_
          rw [update_of_ne (fun e : a = p => hpI (e ▸ ha)), update_of_ne (fun e : a = b => hbI (e ▸ ha)), e2]
        rw [this]
        omega }
  · simp only [hsame.ptr, hsame.size, update_of_ne hbp.symm, update_idem]
  · simp only [hsz]
    rw [e2]
  · simp only [hsame.isFree]
  · exact hsame.slabs
  · exact hsame.total
  · exact hsame.started

/-- A block at the top. -/
theorem gpAddTop_eq {s : GPool} {M : List ℕ} {p : ℕ} (h : DList s.up s.down s.memory M) (hn : M.Nodup) (hne : M ≠ []) (hl : M.length ≤ s.count) (hp : p ∉ M) :
    ∃ b ∈ M, gpAddTop s p = some { s with up := update (update s.up p none) b (some p), down := update s.down p (some b) } ∧
      DList (update (update s.up p none) b (some p)) (update s.down p (some b)) s.memory (M ++ [p]) := by
  obtain ⟨m, hm⟩ : ∃ m, s.memory = some m := by
    obtain ⟨la, h⟩ := h
    cases M with
    | nil => exact absurd rfl hne
    | cons a M => exact ⟨a, h.1⟩
  rw [hm] at h
  obtain ⟨b, h1, h2, h3⟩ := DList.snoc (p := p) (fuel := s.count + 1) h hn hp (by omega)
  refine ⟨b, h3, ?_, by rw [hm]; exact h2⟩
  unfold gpAddTop
  simp only [hm]
  rw [h1]
  rfl

/-- A descriptor becomes a separator, before a new slab. -/
theorem gpSep_rep {s : GPool} {M F I W : List ℕ} {areas : List (ℕ × ℕ)} {e : ℕ} (h : GRep s M F I W areas none (e, e)) (a n : ℕ) :
    ∃ p t W', (gpGet s).bind (fun ps => gpAddTop { ps.2 with size := update ps.2.size ps.1 0, isFree := update ps.2.isFree ps.1 false } ps.1) = some t ∧
      GRep t (M ++ [p]) F I W' (areas ++ [(a, n)]) none (a, a + n) ∧ p ∉ M ∧ t.size p = 0 ∧ t.isFree p = false ∧
      (∀ c ∈ M, t.ptr c = s.ptr c ∧ t.size c = s.size c ∧ t.isFree c = s.isFree c) ∧ t.slabs = s.slabs ∧ t.total = s.total ∧ t.started = s.started := by
  obtain ⟨p, t, W', hg, ht, hpM, hpW, hpc, hsame⟩ := gpGet_rep h
  rw [hg, Option.bind_some]
  obtain ⟨b, hb, h1, h2⟩ := gpAddTop_eq (s := { t with size := update t.size p 0, isFree := update t.isFree p false }) ht.mem ht.ndM ht.ne ht.lenM hpM
  have hM : ∀ c ∈ M, c ≠ p := fun c hc e => hpM (e ▸ hc)
  refine ⟨p, _, W', h1, ?_, hpM, by simp, by simp, fun c hc => by simp [hM c hc, hsame.ptr, hsame.size, hsame.isFree], hsame.slabs, hsame.total, hsame.started⟩
  exact {
    mem := h2
    fre := ht.fre
    use := ht.use
    unu := ht.unu.congr fun c hc => by
      have n1 : c ≠ p := fun e => hpW (e ▸ hc)
      have n2 : c ≠ b := fun e => (List.nodup_append.1 ht.nd).2.2 b hb c hc e.symm
      simp [update_of_ne n1, update_of_ne n2]
    nd := by
      rw [List.append_assoc]
      refine (List.Perm.nodup_iff List.perm_middle.symm).1 (List.nodup_cons.2 ⟨?_, ht.nd⟩)
      rw [List.mem_append, not_or]
      exact ⟨hpM, hpW⟩
    lt := fun c hc => by
      by_cases e : c = p
      · rw [e]; exact hpc
      · refine ht.lt c ?_
        simp only [List.mem_append, List.mem_cons] at hc ⊢
        simp only [e, List.not_mem_nil, or_self, or_false] at hc
        exact hc
    ndF := ht.ndF
    ndI := ht.ndI
    flagF := fun c => by
      rw [ht.flagF]
      by_cases e : c = p
      · simp [e, hpM]
      · simp [e]
    flagI := fun c => by
      rw [ht.flagI]
      by_cases e : c = p
      · simp [e, hpM]
      · simp [e]
    pos := fun c hc hf => by
      by_cases e : c = p
      · simp [e] at hf
      · simp only [List.mem_append, List.mem_cons, e, List.not_mem_nil, or_self, or_false] at hc
        simp only [update_of_ne e] at hf ⊢
        exact ht.pos c hc hf
    ne := by simp
    tile := by
      obtain ⟨x, k, rr, h3, h4⟩ := ht.tile
      refine ⟨x, k, rr ++ [(a, n)], by rw [h3]; rfl, ?_⟩
      rw [tileRun_append, ← tileRun_congr (ptr := t.ptr) (size := t.size)]
      · rw [tileRun_more t.ptr t.size [(a, n)] M _ _ _ _ _ _ h4, Option.bind_some, tileRun_cons]
        unfold tileStep
        simp [tileRun_nil]
      · intro c hc
        simp [hM c hc]
    len := ht.len
    sum := by
      rw [ht.sum]
      congr 1
      refine List.map_congr_left fun c hc => ?_
      simp [update_of_ne (hM c ((ht.flagI c).1 hc).1)] }

/-- More memory from the system. -/
theorem gpExtend_rep {sys : ℕ → ℕ} {s : GPool} {M F I W : List ℕ} {areas : List (ℕ × ℕ)} {e m : ℕ} (h : GRep s M F I W areas none (e, e)) (h0 : 0 < m) :
    ∃ s' p b W' e', gpExtend sys s m = some s' ∧ GRep s' (M ++ [p] ++ [b]) (b :: F) I W' (areas ++ [(sys s.slabs.length, m)]) none (e', e') ∧
      s'.ptr b = sys s.slabs.length ∧ s'.size b = m ∧ s'.isFree b = true ∧ s'.isFree p = false ∧
      (∀ c ∈ M, s'.ptr c = s.ptr c ∧ s'.size c = s.size c ∧ s'.isFree c = s.isFree c) ∧
      s'.slabs = s.slabs ++ [(sys s.slabs.length, gpRound m)] ∧ s'.total = s.total + gpRound m + m ∧ s'.started = s.started := by
  obtain ⟨p, u, W1, hu, hur, hpM, hp0, hpf, hM1, hsl, hto, hst⟩ := gpSep_rep h (sys s.slabs.length) m
  obtain ⟨b, t, W', hg, ht, hbM, hbW, hbc, hsame⟩ := gpGet_rep hur
  have hpb : p ≠ b := fun e => hbM (by simp [e])
  have hM : ∀ c ∈ M ++ [p], c ≠ b := fun c hc e => hbM (e ▸ hc)
  have hbF : b ∉ F := fun e => hbM ((ht.flagF b).1 e).1
  have hbI : b ∉ I := fun e => hbM ((ht.flagI b).1 e).1
  have hlen : t.slabs.length = s.slabs.length := by rw [hsame.slabs, hsl]
  obtain ⟨c, hc, h1, h2⟩ := gpAddTop_eq (s := { (gpSlab sys t m).2 with ptr := update (gpSlab sys t m).2.ptr b (gpSlab sys t m).1
                                                                        total := (gpSlab sys t m).2.total + m, size := update (gpSlab sys t m).2.size b m })
    ht.mem ht.ndM ht.ne ht.lenM hbM
  have hrun : gpExtend sys s m = some (gpMarkFree { (gpSlab sys t m).2 with
      ptr := update (gpSlab sys t m).2.ptr b (gpSlab sys t m).1, total := (gpSlab sys t m).2.total + m, size := update (gpSlab sys t m).2.size b m
      up := update (update t.up b none) c (some b), down := update t.down b (some c) } b) := by
    unfold gpExtend
    cases hgs : gpGet s with
    | none => rw [hgs] at hu; simp at hu
    | some ps =>
      rw [hgs, Option.bind_some] at hu
      simp only [Option.bind_some]
      rw [hu, Option.bind_some, hg]
      simp only [Option.bind_some]
      rw [h1]
      rfl
  refine ⟨_, p, b, W', sys s.slabs.length + m, hrun, ?_, ?_, ?_, ?_, ?_, ?_, ?_, ?_, ?_⟩
  · exact {
      mem := h2
      fre := ht.fre.insert ht.ndF hbF
      use := ht.use.congr fun a ha => gpInsert_other ht.fre (fun e => hbI (e ▸ ha)) (ht.notF ha)
      unu := ht.unu.congr fun a ha => by
        have n1 : a ≠ b := fun e => hbW (e ▸ ha)
        have n2 : a ≠ c := fun e => (List.nodup_append.1 ht.nd).2.2 c hc a ha e.symm
        simp [gpMarkFree, update_of_ne n1, update_of_ne n2]
      nd := by
        rw [List.append_assoc]
        refine (List.Perm.nodup_iff List.perm_middle.symm).1 (List.nodup_cons.2 ⟨?_, ht.nd⟩)
        rw [List.mem_append, not_or]
        exact ⟨hbM, hbW⟩
      lt := fun a ha => by
        by_cases e : a = b
        · rw [e]; exact hbc
        · refine ht.lt a ?_
          simp only [List.mem_append, List.mem_cons, e, List.not_mem_nil, or_self, or_false] at ha ⊢
          exact ha
      ndF := List.nodup_cons.2 ⟨hbF, ht.ndF⟩
      ndI := ht.ndI
      flagF := fun a => by
        rw [List.mem_cons, ht.flagF]
        by_cases e : a = b
        · simp [e, gpMarkFree]
        · simp [e, gpMarkFree, gpSlab]
      flagI := fun a => by
        rw [ht.flagI]
        by_cases e : a = b
        · subst e
          simp only [hbM, false_and, false_iff]
          simp [gpMarkFree]
        · simp [e, gpMarkFree, gpSlab]
      pos := fun a ha hf => by
        by_cases e : a = b
        · rw [e]
          simp [gpMarkFree]
          omega
        · simp only [List.mem_append, List.mem_cons, e, List.not_mem_nil, or_self, or_false] at ha
          simp only [gpMarkFree, gpSlab, update_of_ne e] at hf ⊢
          exact ht.pos a (by simpa using ha) hf
      ne := by simp
      tile := by
        obtain ⟨x, k, rr, h3, h4⟩ := ht.tile
        refine ⟨x, k, rr, h3, ?_⟩
        have e1 : tileRun (gpMarkFree { (gpSlab sys t m).2 with
            ptr := update (gpSlab sys t m).2.ptr b (gpSlab sys t m).1, total := (gpSlab sys t m).2.total + m, size := update (gpSlab sys t m).2.size b m
            up := update (update t.up b none) c (some b), down := update t.down b (some c) } b).ptr (gpMarkFree { (gpSlab sys t m).2 with
            ptr := update (gpSlab sys t m).2.ptr b (gpSlab sys t m).1, total := (gpSlab sys t m).2.total + m, size := update (gpSlab sys t m).2.size b m
            up := update (update t.up b none) c (some b), down := update t.down b (some c) } b).size (M ++ [p]) (x, x + k, rr) =
            tileRun t.ptr t.size (M ++ [p]) (x, x + k, rr) :=
          tileRun_congr _ fun a ha => by simp [gpMarkFree, gpSlab, update_of_ne (hM a ha)]
        rw [tileRun_append, e1, h4, Option.bind_some, tileRun_cons, tileStep_block]
        · simp [tileRun_nil, gpMarkFree]
        · simp [gpMarkFree]
          omega
        · simp [gpMarkFree, gpSlab, hlen]
      len := by
        show t.freeLen + 1 = _
        rw [ht.len, List.length_cons]
      sum := by
        show t.used = _
        rw [ht.sum]
        congr 1
        refine List.map_congr_left fun a ha => ?_
        simp [gpMarkFree, gpSlab, update_of_ne (fun e : a = b => hbI (e ▸ ha))] }
  · simp [gpMarkFree, gpSlab, hlen]
  · simp [gpMarkFree]
  · simp [gpMarkFree]
  · simp [gpMarkFree, gpSlab, hpb, hsame.isFree, hpf]
  · intro a ha
    have n1 := hM a (by simp [ha])
    have := hM1 a ha
    simp [gpMarkFree, gpSlab, n1, hsame.isFree, hsame.ptr, hsame.size, this]
  · simp [gpMarkFree, gpSlab, hsame.slabs, hsl]
  · simp [gpMarkFree, gpSlab, hsame.total, hto]
  · simp [gpMarkFree, gpSlab, hsame.started, hst]

end Hila
