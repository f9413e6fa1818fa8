import Verif.Model.MemPool
import Mathlib.Algebra.BigOperators.Group.List.Basic

/-! Lemmas for `Model/MemPool`. -/

namespace Hila

theorem poolSize_le (req : ℕ) : req ≤ poolSize req ∧ 128 ≤ poolSize req := by
  unfold poolSize; split <;> omega

/-- What the search guarantees. -/
theorem poolSearch_spec (req : ℕ) (hreq : 0 < req) (bs : List PBlock) :
    ∀ (i : ℕ) (acc : PSearch),
      (∀ j sz, (poolSearch req bs i acc).found = some (j, sz) →
        acc.found = some (j, sz) ∨
        ∃ k b, bs[k]? = some b ∧ j = i + k ∧ b.inUse = false ∧ b.size = sz ∧ req ≤ sz ∧
          sz < 2 * req) ∧
      (∀ f, acc.first = some f → (poolSearch req bs i acc).first = some f) ∧
      (acc.first = none →
        (∃ k b, (poolSearch req bs i acc).first = some (i + k) ∧ bs[k]? = some b ∧
          b.inUse = false ∧ ∀ k' < k, ∀ b', bs[k']? = some b' → b'.inUse = true) ∨
        ((poolSearch req bs i acc).first = none ∧
          (poolSearch req bs i acc).found = acc.found ∧ ∀ b ∈ bs, b.inUse = true)) := by
  induction bs with
  | nil =>
    intro i acc
    refine ⟨fun j sz h => Or.inl h, fun f h => h, fun h => Or.inr ⟨h, rfl, by simp⟩⟩
  | cons b bs ih =>
    intro i acc
    by_cases hu : b.inUse = true
    · have he : poolSearch req (b :: bs) i acc = poolSearch req bs (i + 1) acc := by
        rw [poolSearch, if_pos hu]
      rw [he]
      obtain ⟨h1, h2, h3⟩ := ih (i + 1) acc
      refine ⟨?_, h2, ?_⟩
      · intro j sz h
        rcases h1 j sz h with h | ⟨k, b', e1, e2, e3⟩
        · exact Or.inl h
        · exact Or.inr ⟨k + 1, b', by simpa using e1, by omega, e3⟩
      · intro h
        rcases h3 h with ⟨k, b', e1, e2, e3, e4⟩ | ⟨e1, e2, e3⟩
        · refine Or.inl ⟨k + 1, b', by rw [e1]; congr 1; omega, by simpa using e2, e3, ?_⟩
          intro k' hk' b'' hb''
          cases k' with
          | zero => simp at hb''; rw [← hb'']; exact hu
          | succ k' => exact e4 k' (by omega) b'' (by simpa using hb'')
        · refine Or.inr ⟨e1, e2, ?_⟩
          intro b' hb'
          rcases List.mem_cons.1 hb' with rfl | hb'
          · exact hu
          · exact e3 b' hb'
    · have hu' : b.inUse = false := by simpa using hu
      set first := (match acc.first with
        | none => some i
        | some f => some f) with hfirst
      have hsome : ∃ f, first = some f ∧ (acc.first = none → f = i) ∧
          ∀ g, acc.first = some g → f = g := by
        cases ha : acc.first with
        | none => exact ⟨i, by rw [hfirst, ha], fun _ => rfl, fun g hg => by cases hg⟩
        | some g =>
          refine ⟨g, by rw [hfirst, ha], fun h => (by cases h), fun g' hg => ?_⟩
          simpa using hg
      obtain ⟨f, hf, hf1, hf2⟩ := hsome
      -- the statement about `first` is the same in the three cases
      have main : ∀ res : PSearch, res.first = some f →
          (∀ g, acc.first = some g → res.first = some g) ∧
          (acc.first = none →
          (∃ k b', res.first = some (i + k) ∧ (b :: bs)[k]? = some b' ∧
            b'.inUse = false ∧ ∀ k' < k, ∀ b'', (b :: bs)[k']? = some b'' → b''.inUse = true) ∨
          (res.first = none ∧ res.found = acc.found ∧ ∀ b' ∈ b :: bs, b'.inUse = true)) := by
        intro res hres
        refine ⟨fun g hg => by rw [hres, hf2 g hg], fun h => Or.inl ⟨0, b, ?_, rfl, hu', ?_⟩⟩
        · rw [hres, hf1 h]; rfl
        · intro k' hk'; omega
      by_cases he : b.size = req
      · have hs : poolSearch req (b :: bs) i acc = ⟨some (i, b.size), first⟩ := by
          rw [poolSearch, if_neg hu]; simp only [he, if_true]; rfl
        rw [hs]
        refine ⟨?_, main _ hf⟩
        intro j sz h
        simp only [Option.some.injEq, Prod.mk.injEq] at h
        exact Or.inr ⟨0, b, rfl, by omega, hu', h.2, by omega, by omega⟩
      · by_cases hb : b.size > req ∧ b.size < 2 * req
        · set found := (match acc.found with
            | none => some (i, b.size)
            | some f => if f.2 > b.size then some (i, b.size) else some f) with hfound
          have hs : poolSearch req (b :: bs) i acc = poolSearch req bs (i + 1) ⟨found, first⟩ := by
            rw [poolSearch, if_neg hu]; simp only [he, hb, if_false]; rfl
          rw [hs]
          obtain ⟨h1, h2, _⟩ := ih (i + 1) ⟨found, first⟩
          refine ⟨?_, main _ (h2 f hf)⟩
          intro j sz h
          rcases h1 j sz h with h | ⟨k, b', e1, e2, e3⟩
          · have hcase : found = acc.found ∨ found = some (i, b.size) := by
              cases ha : acc.found with
              | none => right; rw [hfound, ha]
              | some g =>
                simp only [hfound, ha]
                split
                · exact Or.inr rfl
                · exact Or.inl rfl
            have h' : found = some (j, sz) := h
            rcases hcase with hc | hc
            · left; rw [← hc]; exact h'
            · rw [hc] at h'
              simp only [Option.some.injEq, Prod.mk.injEq] at h'
              exact Or.inr ⟨0, b, rfl, by omega, hu', h'.2, by omega, by omega⟩
          · exact Or.inr ⟨k + 1, b', by simpa using e1, by omega, e3⟩
        · have hs : poolSearch req (b :: bs) i acc =
              poolSearch req bs (i + 1) ⟨acc.found, first⟩ := by
            rw [poolSearch, if_neg hu]; simp only [he, hb, if_false]; rfl
          rw [hs]
          obtain ⟨h1, h2, _⟩ := ih (i + 1) ⟨acc.found, first⟩
          refine ⟨?_, main _ (h2 f hf)⟩
          intro j sz h
          rcases h1 j sz h with h | ⟨k, b', e1, e2, e3⟩
          · exact Or.inl h
          · exact Or.inr ⟨k + 1, b', by simpa using e1, by omega, e3⟩

theorem split_at (l : List PBlock) (i : ℕ) (b : PBlock) (h : l[i]? = some b) :
    ∃ A B, l = A ++ b :: B ∧ A.length = i ∧
      ∀ v, setInUse l i v = A ++ { b with inUse := v } :: B := by
  obtain ⟨hi, hb⟩ := List.getElem?_eq_some_iff.1 h
  refine ⟨l.take i, l.drop (i + 1), ?_, by rw [List.length_take]; omega, ?_⟩
  · rw [← hb, List.getElem_cons_drop, List.take_append_drop]
  · intro v
    unfold setInUse
    rw [List.modify_eq_take_cons_drop hi, hb]

/-- Two blocks do not overlap. -/
def Disj (a b : ℕ × ℕ) : Prop := a.1 + a.2 ≤ b.1 ∨ b.1 + b.2 ≤ a.1

theorem Disj.symm {a b : ℕ × ℕ} (h : Disj a b) : Disj b a := Or.symm h

/-- Region of a block. -/
def PBlock.region (b : PBlock) : ℕ × ℕ := (b.ptr, b.size)

/-- Invariant of the pool with the list of blocks held by users (address, requested size). -/
structure PInv (s : Pool) (held : List (ℕ × ℕ)) : Prop where
  disj : (s.blocks.map PBlock.region).Pairwise Disj
  pos : ∀ b ∈ s.blocks, 128 ≤ b.size
  ff : s.firstFree ≤ s.blocks.length
  below : ∀ i < s.firstFree, ∀ b, s.blocks[i]? = some b → b.inUse = true
  total : s.total = (s.blocks.map PBlock.size).sum
  heldIn : ∀ x ∈ held, ∃ b ∈ s.blocks, b.inUse = true ∧ b.ptr = x.1 ∧ x.2 ≤ b.size
  used : ∀ b ∈ s.blocks, b.inUse = true → ∃ x ∈ held, x.1 = b.ptr
  nodup : (held.map Prod.fst).Nodup

theorem disj_mem {l : List PBlock} (hd : (l.map PBlock.region).Pairwise Disj) {A B : List PBlock}
    {b c : PBlock} (hl : l = A ++ b :: B) (hc : c ∈ A ∨ c ∈ B) : Disj b.region c.region := by
  subst hl
  rw [List.map_append, List.map_cons, List.pairwise_append] at hd
  obtain ⟨h1, h2, h3⟩ := hd
  rw [List.pairwise_cons] at h2
  rcases hc with hc | hc
  · exact (h3 _ (List.mem_map_of_mem hc) _ List.mem_cons_self).symm
  · exact h2.1 _ (List.mem_map_of_mem hc)

theorem ptr_ne {s : Pool} {held : List (ℕ × ℕ)} (h : PInv s held) {A B : List PBlock}
    {b c : PBlock} (hl : s.blocks = A ++ b :: B) (hc : c ∈ A ∨ c ∈ B) : c.ptr ≠ b.ptr := by
  have hd := disj_mem h.disj hl hc
  have hb := h.pos b (by rw [hl]; simp)
  have hc' := h.pos c (by rw [hl]; rcases hc with hc | hc <;> simp [hc])
  simp only [Disj, PBlock.region] at hd
  omega

theorem lastIndex_some {l : List PBlock} {p i : ℕ} (h : lastIndex l p = some i) :
    ∃ b, l[i]? = some b ∧ b.ptr = p := by
  unfold lastIndex at h
  have := List.find?_some h
  simp only [decide_eq_true_eq] at this
  rw [Option.map_eq_some_iff] at this
  exact this

theorem lastIndex_none {l : List PBlock} {p : ℕ} (h : lastIndex l p = none) :
    ∀ b ∈ l, b.ptr ≠ p := by
  intro b hb hp
  unfold lastIndex at h
  rw [List.find?_eq_none] at h
  obtain ⟨i, hi, rfl⟩ := List.getElem_of_mem hb
  have := h i (by simp [hi])
  apply this
  rw [decide_eq_true_eq, List.getElem?_eq_getElem hi, Option.map_some, hp]

/-- Allocation keeps the invariant. -/
theorem alloc_inv (s : Pool) (held : List (ℕ × ℕ)) (h : PInv s held) (req np : ℕ)
    (env : ∀ b ∈ s.blocks, Disj (np, poolSize req) b.region) :
    ∃ s' p sz, s.alloc req np = some (s', p) ∧ PInv s' ((p, req) :: held) ∧
      (⟨p, sz, true⟩ : PBlock) ∈ s'.blocks ∧ req ≤ sz ∧ poolSize req ≤ sz ∧
      sz < 2 * poolSize req ∧ (∀ x ∈ held, x.1 ≠ p) ∧
      ∀ x ∈ held, Disj (p, sz) x := by
  obtain ⟨hq1, hq2⟩ := poolSize_le req
  obtain ⟨g1, _, g3⟩ := poolSearch_spec (poolSize req) (by omega)
    (s.blocks.drop s.firstFree) s.firstFree ⟨none, none⟩
  set r := poolSearch (poolSize req) (s.blocks.drop s.firstFree) s.firstFree ⟨none, none⟩ with hr
  set first := (match r.first with
      | some f => f
      | none => match r.found with
        | some f => f.1
        | none => s.blocks.length) with hfirst
  set ff := newFirstFree r s.blocks.length s.firstFree with hff
  have hff' : ff = if first > s.firstFree then first else s.firstFree := rfl
  have hfirst_le : first ≤ s.blocks.length ∧
      ∀ i < first, ∀ b, s.blocks[i]? = some b → b.inUse = true := by
    rcases g3 rfl with ⟨k, b, e1, e2, e3, e4⟩ | ⟨e1, e2, e3⟩
    · have hf : first = s.firstFree + k := by rw [hfirst, e1]
      rw [List.getElem?_drop] at e2
      have hlt : s.firstFree + k < s.blocks.length := (List.getElem?_eq_some_iff.1 e2).1
      refine ⟨by omega, ?_⟩
      intro i hi b' hb'
      by_cases hlow : i < s.firstFree
      · exact h.below i hlow b' hb'
      · refine e4 (i - s.firstFree) (by omega) b' ?_
        rw [List.getElem?_drop, show s.firstFree + (i - s.firstFree) = i by omega]; exact hb'
    · have hf : first = s.blocks.length := by rw [hfirst, e1, e2]
      refine ⟨by omega, ?_⟩
      intro i hi b' hb'
      by_cases hlow : i < s.firstFree
      · exact h.below i hlow b' hb'
      · apply e3
        apply List.mem_of_getElem? (i := i - s.firstFree)
        rw [List.getElem?_drop, show s.firstFree + (i - s.firstFree) = i by omega]; exact hb'
  have hff_le : ff ≤ s.blocks.length ∧
      ∀ i < ff, ∀ b, s.blocks[i]? = some b → b.inUse = true := by
    rw [hff']; split
    · exact hfirst_le
    · exact ⟨h.ff, h.below⟩
  have hundef : ¬ s.firstFree > s.blocks.length := by have := h.ff; omega
  cases hfd : r.found with
  | some js =>
    obtain ⟨i, sz⟩ := js
    rcases g1 i sz hfd with hc | ⟨k, b, e1, e2, e3, e4, e5, e6⟩
    · cases hc
    rw [List.getElem?_drop, ← e2] at e1
    obtain ⟨A, B, hl, hA, hset⟩ := split_at s.blocks i b e1
    have hal : s.alloc req np = some (⟨setInUse s.blocks i true, ff, s.total⟩, b.ptr) := by
      unfold Pool.alloc
      simp only [if_neg hundef]
      rw [← hr, hfd]
      simp only [e1, Option.map_some, Option.getD_some]
      rfl
    have hneb : ∀ x ∈ held, x.1 ≠ b.ptr := by
      intro x hx hxp
      obtain ⟨c, hc, hcu, hcp, _⟩ := h.heldIn x hx
      rw [hl] at hc
      have hc' : c ∈ A ∨ c = b ∨ c ∈ B := by simpa using hc
      rcases hc' with hc' | rfl | hc'
      · exact ptr_ne h hl (Or.inl hc') (by omega)
      · rw [e3] at hcu; cases hcu
      · exact ptr_ne h hl (Or.inr hc') (by omega)
    refine ⟨_, _, sz, hal, ⟨?_, ?_, ?_, ?_, ?_, ?_, ?_, ?_⟩, ?_, by omega, by omega, e6, hneb, ?_⟩
    · have : (setInUse s.blocks i true).map PBlock.region = s.blocks.map PBlock.region := by
        rw [hset, hl]; simp [PBlock.region]
      show ((setInUse s.blocks i true).map PBlock.region).Pairwise Disj
      rw [this]; exact h.disj
    · intro c hc
      have hc : c ∈ setInUse s.blocks i true := hc
      rw [hset] at hc
      have hc' : c ∈ A ∨ c = { b with inUse := true } ∨ c ∈ B := by simpa using hc
      rcases hc' with hc' | rfl | hc'
      · exact h.pos c (by rw [hl]; simp [hc'])
      · exact h.pos b (by rw [hl]; simp)
      · exact h.pos c (by rw [hl]; simp [hc'])
    · show ff ≤ (setInUse s.blocks i true).length
      unfold setInUse; rw [List.length_modify]; exact hff_le.1
    · intro j hj c hc
      have hc : (setInUse s.blocks i true)[j]? = some c := hc
      unfold setInUse at hc
      rw [List.getElem?_modify, Option.map_eq_map] at hc
      rw [Option.map_eq_some_iff] at hc
      obtain ⟨d, hd, rfl⟩ := hc
      split
      · rfl
      · exact hff_le.2 j hj d hd
    · show s.total = ((setInUse s.blocks i true).map PBlock.size).sum
      rw [h.total, hset, hl]; simp
    · intro x hx
      show ∃ c ∈ setInUse s.blocks i true, _
      rw [hset]
      rcases List.mem_cons.1 hx with rfl | hx
      · exact ⟨{ b with inUse := true }, by simp, rfl, rfl, by show req ≤ b.size; omega⟩
      · obtain ⟨c, hc, hcu, hcp, hcs⟩ := h.heldIn x hx
        rw [hl] at hc
        have hc' : c ∈ A ∨ c = b ∨ c ∈ B := by simpa using hc
        rcases hc' with hc' | rfl | hc'
        · exact ⟨c, by simp [hc'], hcu, hcp, hcs⟩
        · rw [e3] at hcu; cases hcu
        · exact ⟨c, by simp [hc'], hcu, hcp, hcs⟩
    · intro c hc hcu
      have hc : c ∈ setInUse s.blocks i true := hc
      rw [hset] at hc
      have hc' : c ∈ A ∨ c = { b with inUse := true } ∨ c ∈ B := by simpa using hc
      rcases hc' with hc' | rfl | hc'
      · obtain ⟨x, hx, hxp⟩ := h.used c (by rw [hl]; simp [hc']) hcu
        exact ⟨x, List.mem_cons_of_mem _ hx, hxp⟩
      · exact ⟨_, List.mem_cons_self, rfl⟩
      · obtain ⟨x, hx, hxp⟩ := h.used c (by rw [hl]; simp [hc']) hcu
        exact ⟨x, List.mem_cons_of_mem _ hx, hxp⟩
    · rw [List.map_cons, List.nodup_cons]
      refine ⟨?_, h.nodup⟩
      intro hm
      obtain ⟨x, hx, hxp⟩ := List.mem_map.1 hm
      exact hneb x hx hxp
    · show _ ∈ setInUse s.blocks i true
      rw [hset, ← e4]; simp
    · intro x hx
      obtain ⟨c, hc, hcu, hcp, hcs⟩ := h.heldIn x hx
      rw [hl] at hc
      have hc' : c ∈ A ∨ c = b ∨ c ∈ B := by simpa using hc
      have : Disj b.region c.region := by
        rcases hc' with hc' | rfl | hc'
        · exact disj_mem h.disj hl (Or.inl hc')
        · rw [e3] at hcu; cases hcu
        · exact disj_mem h.disj hl (Or.inr hc')
      simp only [Disj, PBlock.region] at this ⊢
      omega
  | none =>
    have hal : s.alloc req np =
        some (⟨s.blocks ++ [⟨np, poolSize req, true⟩], ff, s.total + poolSize req⟩, np) := by
      unfold Pool.alloc
      simp only [if_neg hundef]
      rw [← hr, hfd]
    have hneb : ∀ x ∈ held, x.1 ≠ np := by
      intro x hx hxp
      obtain ⟨c, hc, hcu, hcp, _⟩ := h.heldIn x hx
      have := env c hc
      have hp := h.pos c hc
      simp only [Disj, PBlock.region] at this
      omega
    refine ⟨_, _, poolSize req, hal, ⟨?_, ?_, ?_, ?_, ?_, ?_, ?_, ?_⟩, by simp, hq1,
      Nat.le_refl _, by omega, hneb, ?_⟩
    · show ((s.blocks ++ [(⟨np, poolSize req, true⟩ : PBlock)]).map PBlock.region).Pairwise Disj
      rw [List.map_append, List.pairwise_append]
      refine ⟨h.disj, by simp, ?_⟩
      intro a ha b hb
      obtain ⟨c, hc, rfl⟩ := List.mem_map.1 ha
      simp only [List.map_cons, List.map_nil, List.mem_singleton] at hb
      subst hb
      exact (env c hc).symm
    · intro c hc
      have hc' : c ∈ s.blocks ∨ c = ⟨np, poolSize req, true⟩ := by simpa using hc
      rcases hc' with hc' | rfl
      · exact h.pos c hc'
      · exact hq2
    · show ff ≤ (s.blocks ++ [(⟨np, poolSize req, true⟩ : PBlock)]).length
      rw [List.length_append]; have := hff_le.1; omega
    · intro j hj c hc
      have hc : (s.blocks ++ [(⟨np, poolSize req, true⟩ : PBlock)])[j]? = some c := hc
      have hj : j < ff := hj
      rw [List.getElem?_append_left (by have := hff_le.1; omega)] at hc
      exact hff_le.2 j hj c hc
    · show s.total + poolSize req = _
      rw [h.total]; simp
    · intro x hx
      rcases List.mem_cons.1 hx with rfl | hx
      · exact ⟨⟨np, poolSize req, true⟩, by simp, rfl, rfl, hq1⟩
      · obtain ⟨c, hc, h'⟩ := h.heldIn x hx
        exact ⟨c, by simp [hc], h'⟩
    · intro c hc hcu
      have hc' : c ∈ s.blocks ∨ c = ⟨np, poolSize req, true⟩ := by simpa using hc
      rcases hc' with hc' | rfl
      · obtain ⟨x, hx, hxp⟩ := h.used c hc' hcu
        exact ⟨x, List.mem_cons_of_mem _ hx, hxp⟩
      · exact ⟨_, List.mem_cons_self, rfl⟩
    · rw [List.map_cons, List.nodup_cons]
      refine ⟨?_, h.nodup⟩
      intro hm
      obtain ⟨x, hx, hxp⟩ := List.mem_map.1 hm
      exact hneb x hx hxp
    · intro x hx
      obtain ⟨c, hc, hcu, hcp, hcs⟩ := h.heldIn x hx
      have := env c hc
      simp only [Disj, PBlock.region] at this ⊢
      omega

/-- Freeing a held block keeps the invariant; anything else is refused. -/
theorem free_inv (s : Pool) (held : List (ℕ × ℕ)) (h : PInv s held) (p : ℕ) :
    ((∃ m, (p, m) ∈ held) →
      ∃ s', s.free p = .ok s' ∧ PInv s' (held.filter fun x => decide (x.1 ≠ p))) ∧
    ((∀ x ∈ held, x.1 ≠ p) → ∃ e, s.free p = .error e) := by
  constructor
  · rintro ⟨m, hm⟩
    obtain ⟨b, hb, hbu, hbp, hbs⟩ := h.heldIn _ hm
    cases hli : lastIndex s.blocks p with
    | none => exact absurd hbp (lastIndex_none hli b hb)
    | some i =>
      obtain ⟨c, hc, hcp⟩ := lastIndex_some hli
      obtain ⟨A, B, hl, hA, hset⟩ := split_at s.blocks i c hc
      have hcb : c = b := by
        rw [hl] at hb
        have hb' : b ∈ A ∨ b = c ∨ b ∈ B := by simpa using hb
        have hbp' : b.ptr = p := hbp
        rcases hb' with hb' | hb' | hb'
        · exact absurd (hbp'.trans hcp.symm) (ptr_ne h hl (Or.inl hb'))
        · exact hb'.symm
        · exact absurd (hbp'.trans hcp.symm) (ptr_ne h hl (Or.inr hb'))
      subst hcb
      have hfree : s.free p = .ok { s with
          blocks := setInUse s.blocks i false,
          firstFree := if i < s.firstFree then i else s.firstFree } := by
        unfold Pool.free
        rw [hli]
        simp only [hc, Option.map_some]
        rw [if_neg (by rw [hbu]; simp)]
      refine ⟨_, hfree, ⟨?_, ?_, ?_, ?_, ?_, ?_, ?_, ?_⟩⟩
      · have : (setInUse s.blocks i false).map PBlock.region = s.blocks.map PBlock.region := by
          rw [hset, hl]; simp [PBlock.region]
        show ((setInUse s.blocks i false).map PBlock.region).Pairwise Disj
        rw [this]; exact h.disj
      · intro d hd
        have hd : d ∈ setInUse s.blocks i false := hd
        rw [hset] at hd
        have hd' : d ∈ A ∨ d = { c with inUse := false } ∨ d ∈ B := by simpa using hd
        rcases hd' with hd' | rfl | hd'
        · exact h.pos d (by rw [hl]; simp [hd'])
        · exact h.pos c (by rw [hl]; simp)
        · exact h.pos d (by rw [hl]; simp [hd'])
      · show (if i < s.firstFree then i else s.firstFree) ≤ (setInUse s.blocks i false).length
        unfold setInUse; rw [List.length_modify]
        have := h.ff
        split <;> omega
      · intro j hj d hd
        have hd : (setInUse s.blocks i false)[j]? = some d := hd
        have hj : j < if i < s.firstFree then i else s.firstFree := hj
        have hji : j ≠ i ∧ j < s.firstFree := by
          split at hj <;> omega
        unfold setInUse at hd
        rw [List.getElem?_modify, Option.map_eq_map] at hd
        rw [Option.map_eq_some_iff] at hd
        obtain ⟨d', hd', rfl⟩ := hd
        rw [if_neg (fun hx => hji.1 hx.symm)]
        exact h.below j hji.2 d' hd'
      · show s.total = ((setInUse s.blocks i false).map PBlock.size).sum
        rw [h.total, hset, hl]; simp
      · intro x hx
        obtain ⟨hx, hxp⟩ := List.mem_filter.1 hx
        simp only [ne_eq, decide_not, Bool.not_eq_true', decide_eq_false_iff_not] at hxp
        show ∃ d ∈ setInUse s.blocks i false, _
        rw [hset]
        obtain ⟨d, hd, hdu, hdp, hds⟩ := h.heldIn x hx
        rw [hl] at hd
        have hd' : d ∈ A ∨ d = c ∨ d ∈ B := by simpa using hd
        rcases hd' with hd' | rfl | hd'
        · exact ⟨d, by simp [hd'], hdu, hdp, hds⟩
        · exact absurd (hdp.symm.trans hbp) hxp
        · exact ⟨d, by simp [hd'], hdu, hdp, hds⟩
      · intro d hd hdu
        have hd : d ∈ setInUse s.blocks i false := hd
        rw [hset] at hd
        have hd' : d ∈ A ∨ d = { c with inUse := false } ∨ d ∈ B := by simpa using hd
        have key : ∀ d, (d ∈ A ∨ d ∈ B) → d.inUse = true →
            ∃ x ∈ held.filter fun x => decide (x.1 ≠ p), x.1 = d.ptr := by
          intro d hd hdu
          obtain ⟨x, hx, hxp⟩ := h.used d (by rw [hl]; rcases hd with hd | hd <;> simp [hd]) hdu
          refine ⟨x, List.mem_filter.2 ⟨hx, ?_⟩, hxp⟩
          have := ptr_ne h hl hd
          have hbp' : c.ptr = p := hbp
          simp only [ne_eq, decide_not, Bool.not_eq_true', decide_eq_false_iff_not]
          rw [hxp, ← hbp']; exact this
        rcases hd' with hd' | rfl | hd'
        · exact key d (Or.inl hd') hdu
        · cases hdu
        · exact key d (Or.inr hd') hdu
      · exact h.nodup.sublist (List.Sublist.map _ List.filter_sublist)
  · intro hno
    cases hli : lastIndex s.blocks p with
    | none => exact ⟨.unknownPointer, by unfold Pool.free; rw [hli]⟩
    | some i =>
      obtain ⟨c, hc, hcp⟩ := lastIndex_some hli
      refine ⟨.alreadyFreed, ?_⟩
      unfold Pool.free
      rw [hli]
      simp only [hc, Option.map_some]
      rw [if_pos]
      cases hu : c.inUse
      · rfl
      · obtain ⟨x, hx, hxp⟩ := h.used c (List.mem_of_getElem? hc) hu
        exact absurd (hxp.trans hcp) (hno x hx)

theorem sum_filter (l : List PBlock) :
    ((l.filter fun b => b.inUse).map PBlock.size).sum +
      ((l.filter fun b => !b.inUse).map PBlock.size).sum = (l.map PBlock.size).sum := by
  induction l with
  | nil => rfl
  | cons b l ih =>
    cases hb : b.inUse
    · rw [List.filter_cons_of_neg (by simp [hb]), List.filter_cons_of_pos (by simp [hb])]
      simp only [List.map_cons, List.sum_cons]; omega
    · rw [List.filter_cons_of_pos (by simp [hb]), List.filter_cons_of_neg (by simp [hb])]
      simp only [List.map_cons, List.sum_cons]; omega

/-- Purging on a GPU build keeps the invariant. -/
theorem purge_inv (s : Pool) (held : List (ℕ × ℕ)) (h : PInv s held) :
    ∃ s', s.purge true = .ok s' ∧ PInv s' held ∧ s'.blocks = s.blocks.filter fun b => b.inUse := by
  have hp : s.purge true = .ok ⟨s.blocks.filter fun b => b.inUse, s.firstFree,
      s.total - ((s.blocks.filter fun b => !b.inUse).map PBlock.size).sum⟩ := by
    unfold Pool.purge; rw [if_neg (by simp)]
  -- blocks below `firstFree` stay where they are
  have hsplit : s.blocks.filter (fun b => b.inUse) =
      s.blocks.take s.firstFree ++ (s.blocks.drop s.firstFree).filter fun b => b.inUse := by
    conv_lhs => rw [← List.take_append_drop s.firstFree s.blocks]
    rw [List.filter_append]
    congr 1
    rw [List.filter_eq_self]
    intro b hb
    obtain ⟨i, hi, rfl⟩ := List.getElem_of_mem hb
    have hi' : i < s.firstFree := by rw [List.length_take] at hi; omega
    refine h.below i hi' _ ?_
    rw [List.getElem_take]
    exact List.getElem?_eq_getElem _
  have hlen : (s.blocks.take s.firstFree).length = s.firstFree := by
    rw [List.length_take]; have := h.ff; omega
  refine ⟨_, hp, ⟨?_, ?_, ?_, ?_, ?_, ?_, ?_, h.nodup⟩, rfl⟩
  · exact h.disj.sublist (List.Sublist.map _ List.filter_sublist)
  · intro b hb; exact h.pos b (List.mem_of_mem_filter hb)
  · show s.firstFree ≤ (s.blocks.filter fun b => b.inUse).length
    rw [hsplit, List.length_append, hlen]; omega
  · intro i hi b hb
    have hb : (s.blocks.filter fun b => b.inUse)[i]? = some b := hb
    exact (List.mem_filter.1 (List.mem_of_getElem? hb)).2
  · show s.total - _ = ((s.blocks.filter fun b => b.inUse).map PBlock.size).sum
    rw [h.total, ← sum_filter s.blocks]; omega
  · intro x hx
    obtain ⟨b, hb, hbu, h'⟩ := h.heldIn x hx
    exact ⟨b, List.mem_filter.2 ⟨hb, hbu⟩, hbu, h'⟩
  · intro b hb hbu
    exact h.used b (List.mem_of_mem_filter hb) hbu

end Hila
