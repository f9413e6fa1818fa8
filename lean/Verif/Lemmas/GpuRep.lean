import Mathlib.Tactic.Linarith
import Mathlib.Algebra.BigOperators.Group.List.Basic
import Mathlib.Data.List.Chain
import Mathlib.Data.Finset.Card
import Mathlib.Data.Finset.Range
import Verif.Model.GpuPoolSpec
import Verif.Lemmas.GpuList

/-!
# The blocks tile the slabs
-/

namespace Hila

open Function

theorem dSeg_last {nx pv : ℕ → Option ℕ} : ∀ {l : List ℕ} {pr hd la nt : Option ℕ}, DSeg nx pv pr hd l la nt → la = l.getLast?.or pr
  | [], _, _, _, _, ⟨_, h⟩ => by simp [h]
  | a :: l, pr, hd, la, nt, ⟨_, _, h⟩ => by
    have := dSeg_last h
    rw [this]
    cases l with
    | nil => simp
    | cons b l => simp [List.getLast?_cons]

theorem DList.at {nx pv : ℕ → Option ℕ} {hd : Option ℕ} {l1 l2 : List ℕ} {p : ℕ} (h : DList nx pv hd (l1 ++ p :: l2)) :
    nx p = l2.head? ∧ pv p = l1.getLast? := by
  obtain ⟨la, h⟩ := h
  obtain ⟨x, y, h1, _, h2, h3⟩ := dSeg_append.1 h
  constructor
  · cases l2 with
    | nil => simpa using h3.1
    | cons b l2 => simpa using h3.1
  · rw [h2, dSeg_last h1]
    simp

theorem DList.erase {nx pv : ℕ → Option ℕ} {hd : Option ℕ} {l : List ℕ} {p : ℕ} (h : DList nx pv hd l) (hn : l.Nodup) (hp : p ∈ l) :
    DList (gpRemove nx pv hd p).1 (gpRemove nx pv hd p).2.1 (gpRemove nx pv hd p).2.2 (l.erase p) := by
  obtain ⟨l1, l2, rfl⟩ := List.append_of_mem hp
  have h1 : p ∉ l1 := fun e => (List.nodup_append.1 hn).2.2 p e p (by simp) rfl
  rw [List.erase_append_right _ h1, List.erase_cons_head]
  exact h.remove hn

theorem gpRemove_eq (nx pv : ℕ → Option ℕ) (hd : Option ℕ) (p : ℕ) (h : nx p ≠ some p) :
    gpRemove nx pv hd p = ((gpSet nx (pv p) (nx p)), gpSet pv (nx p) (pv p), match pv p with | some _ => hd | none => nx p) := by
  unfold gpRemove
  have : gpSet pv (nx p) (pv p) p = pv p := by
    unfold gpSet
    cases e : nx p with
    | none => rfl
    | some q =>
      simp only []
      rw [update_of_ne]
      rintro rfl
      exact h e
  simp only [this]
  cases pv p <;> rfl

/-- The nodes whose pointers `gpRemove` changes are the neighbours in the list. -/
theorem gpRemove_other {nx pv : ℕ → Option ℕ} {hd : Option ℕ} {l : List ℕ} {p a : ℕ} (h : DList nx pv hd l) (hn : l.Nodup) (hp : p ∈ l) (ha : a ∉ l) :
    nx a = (gpRemove nx pv hd p).1 a ∧ pv a = (gpRemove nx pv hd p).2.1 a := by
  obtain ⟨l1, l2, rfl⟩ := List.append_of_mem hp
  obtain ⟨h1, h2⟩ := h.at
  have hne : nx p ≠ some p := by
    rw [h1]
    intro e
    exact (List.nodup_cons.1 (List.nodup_append.1 hn).2.1).1 (List.mem_of_mem_head? e)
  rw [gpRemove_eq _ _ _ _ hne, h1, h2]
  constructor
  · unfold gpSet
    cases e : l1.getLast? with
    | none => rfl
    | some q =>
      have hq := List.mem_of_getLast? e
      simp only []
      rw [update_of_ne]
      rintro rfl
      exact ha (by simp [hq])
  · unfold gpSet
    cases e : l2.head? with
    | none => rfl
    | some q =>
      have hq := List.mem_of_mem_head? (show q ∈ l2.head? from e)
      simp only []
      rw [update_of_ne]
      rintro rfl
      exact ha (by simp [hq])

theorem gpInsert_other {nx pv : ℕ → Option ℕ} {hd : Option ℕ} {l : List ℕ} {p a : ℕ} (h : DList nx pv hd l) (hap : a ≠ p) (ha : a ∉ l) :
    nx a = (gpInsert nx pv hd p).1 a ∧ pv a = (gpInsert nx pv hd p).2.1 a := by
  unfold gpInsert gpSet
  simp only []
  rw [update_of_ne hap, update_of_ne hap]
  refine ⟨rfl, ?_⟩
  cases l with
  | nil =>
    obtain ⟨la, h⟩ := h
    rw [h.1]
  | cons q l =>
    obtain ⟨la, h⟩ := h
    rw [h.1]
    show _ = update pv q (some p) a
    rw [update_of_ne]
    rintro rfl
    exact ha (by simp)

/-! ### Tiles -/

/-- One block, seen from the position `t.1` in a slab that ends at `t.2.1`, with the slabs `t.2.2` to come. A block of size zero is a separator. -/
def tileStep (ptr size : ℕ → ℕ) (t : ℕ × ℕ × List (ℕ × ℕ)) (b : ℕ) : Option (ℕ × ℕ × List (ℕ × ℕ)) :=
  if size b = 0 then
    if t.1 = t.2.1 then t.2.2.head?.map fun x => (x.1, x.1 + x.2, t.2.2.tail) else none
  else if ptr b = t.1 then some (t.1 + size b, t.2.1, t.2.2) else none

/-- The blocks of the list follow one another through the slabs. -/
def tileRun (ptr size : ℕ → ℕ) (l : List ℕ) (t : ℕ × ℕ × List (ℕ × ℕ)) : Option (ℕ × ℕ × List (ℕ × ℕ)) := l.foldlM (tileStep ptr size) t

theorem tileRun_nil (ptr size : ℕ → ℕ) (t : ℕ × ℕ × List (ℕ × ℕ)) : tileRun ptr size [] t = some t := rfl

theorem tileRun_cons (ptr size : ℕ → ℕ) (b : ℕ) (l : List ℕ) (t : ℕ × ℕ × List (ℕ × ℕ)) :
    tileRun ptr size (b :: l) t = (tileStep ptr size t b).bind (tileRun ptr size l) := rfl

theorem tileRun_append (ptr size : ℕ → ℕ) (l m : List ℕ) (t : ℕ × ℕ × List (ℕ × ℕ)) :
    tileRun ptr size (l ++ m) t = (tileRun ptr size l t).bind (tileRun ptr size m) := by
  unfold tileRun
  rw [List.foldlM_append]
  rfl

theorem tileRun_congr {ptr size ptr' size' : ℕ → ℕ} : ∀ {l : List ℕ} (t : ℕ × ℕ × List (ℕ × ℕ)), (∀ a ∈ l, ptr a = ptr' a ∧ size a = size' a) →
    tileRun ptr size l t = tileRun ptr' size' l t
  | [], _, _ => rfl
  | a :: l, t, h => by
    rw [tileRun_cons, tileRun_cons]
    have h1 : tileStep ptr size t a = tileStep ptr' size' t a := by
      unfold tileStep
      rw [(h a (by simp)).1, (h a (by simp)).2]
    rw [h1]
    congr 1
    funext x
    exact tileRun_congr x fun b hb => h b (by simp [hb])

theorem tileStep_block {ptr size : ℕ → ℕ} {t : ℕ × ℕ × List (ℕ × ℕ)} {b : ℕ} (h : size b ≠ 0) (hp : ptr b = t.1) :
    tileStep ptr size t b = some (t.1 + size b, t.2.1, t.2.2) := by
  unfold tileStep
  rw [if_neg h, if_pos hp]

theorem tileStep_some {ptr size : ℕ → ℕ} {t z : ℕ × ℕ × List (ℕ × ℕ)} {b : ℕ} (h : size b ≠ 0) (hz : tileStep ptr size t b = some z) :
    ptr b = t.1 ∧ z = (t.1 + size b, t.2.1, t.2.2) := by
  unfold tileStep at hz
  rw [if_neg h] at hz
  split at hz
  · rename_i e
    exact ⟨e, (Option.some.inj hz).symm⟩
  · exact absurd hz (by simp)

/-- More slabs to come. -/
theorem tileRun_more (ptr size : ℕ → ℕ) (x : List (ℕ × ℕ)) : ∀ (l : List ℕ) (a e : ℕ) (r : List (ℕ × ℕ)) (a' e' : ℕ) (r' : List (ℕ × ℕ)),
    tileRun ptr size l (a, e, r) = some (a', e', r') → tileRun ptr size l (a, e, r ++ x) = some (a', e', r' ++ x)
  | [], a, e, r, a', e', r', h => by
    simp only [tileRun_nil, Option.some.injEq, Prod.mk.injEq] at h ⊢
    obtain ⟨rfl, rfl, rfl⟩ := h
    exact ⟨rfl, rfl, rfl⟩
  | b :: l, a, e, r, a', e', r', h => by
    rw [tileRun_cons] at h ⊢
    unfold tileStep at h ⊢
    by_cases h0 : size b = 0
    · rw [if_pos h0] at h ⊢
      by_cases h1 : a = e
      · simp only [if_pos h1] at h ⊢
        cases r with
        | nil => simp at h
        | cons y r =>
          simp only [List.head?_cons, Option.map_some, List.tail_cons, Option.bind_some, List.cons_append] at h ⊢
          exact tileRun_more ptr size x l _ _ _ _ _ _ h
      · simp only [if_neg h1] at h
        simp at h
    · rw [if_neg h0] at h ⊢
      by_cases h1 : ptr b = a
      · simp only [if_pos h1, Option.bind_some] at h ⊢
        exact tileRun_more ptr size x l _ _ _ _ _ _ h
      · simp only [if_neg h1] at h
        simp at h

/-- Every block lies in what is left of the slab or in a slab to come. -/
theorem tileRun_within (ptr size : ℕ → ℕ) : ∀ (l : List ℕ) (a e : ℕ) (r : List (ℕ × ℕ)) (z : ℕ), tileRun ptr size l (a, e, r) = some (z, z, []) →
    a ≤ e ∧ ∀ b ∈ l, size b ≠ 0 → (a ≤ ptr b ∧ ptr b + size b ≤ e) ∨ ∃ y ∈ r, y.1 ≤ ptr b ∧ ptr b + size b ≤ y.1 + y.2
  | [], a, e, r, z, h => by
    simp only [tileRun_nil, Option.some.injEq, Prod.mk.injEq] at h
    exact ⟨by omega, by simp⟩
  | b :: l, a, e, r, z, h => by
    rw [tileRun_cons] at h
    by_cases h0 : size b = 0
    · unfold tileStep at h
      rw [if_pos h0] at h
      by_cases h1 : a = e
      · simp only [if_pos h1] at h
        cases r with
        | nil => simp at h
        | cons y r =>
          simp only [List.head?_cons, Option.map_some, List.tail_cons, Option.bind_some] at h
          obtain ⟨_, h3⟩ := tileRun_within ptr size l _ _ _ _ h
          refine ⟨by omega, fun c hc hs => ?_⟩
          rcases List.mem_cons.1 hc with rfl | hc
          · exact absurd h0 hs
          · rcases h3 c hc hs with h4 | ⟨w, hw, h4⟩
            · exact Or.inr ⟨y, by simp, h4⟩
            · exact Or.inr ⟨w, by simp [hw], h4⟩
      · simp only [if_neg h1] at h
        simp at h
    · cases hz : tileStep ptr size (a, e, r) b with
      | none => rw [hz] at h; simp at h
      | some w =>
        rw [hz] at h
        obtain ⟨h1, rfl⟩ := tileStep_some h0 hz
        obtain ⟨h2, h3⟩ := tileRun_within ptr size l _ _ _ _ h
        simp only [] at h1 h2
        refine ⟨by omega, fun c hc hs => ?_⟩
        rcases List.mem_cons.1 hc with rfl | hc
        · exact Or.inl ⟨by omega, by omega⟩
        · rcases h3 c hc hs with h4 | h4
          · exact Or.inl ⟨by have := h4.1; simp only [] at this; omega, h4.2⟩
          · exact Or.inr h4

theorem Apart.symm {x y : ℕ × ℕ} (h : Apart x y) : Apart y x := h.elim Or.inr Or.inl

/-- Blocks of slabs that lie apart lie apart. -/
theorem tileRun_apart (ptr size : ℕ → ℕ) : ∀ (l : List ℕ) (x a e : ℕ) (r : List (ℕ × ℕ)) (z : ℕ), tileRun ptr size l (a, e, r) = some (z, z, []) →
    x ≤ a → ((x, e - x) :: r).Pairwise Apart → l.Pairwise fun b c => size b ≠ 0 → size c ≠ 0 → Apart (ptr b, size b) (ptr c, size c)
  | [], _, _, _, _, _, _, _, _ => List.Pairwise.nil
  | b :: l, x, a, e, r, z, h, hx, hr => by
    have hw := (tileRun_within ptr size _ _ _ _ _ h).2 b (by simp)
    rw [tileRun_cons] at h
    by_cases h0 : size b = 0
    · unfold tileStep at h
      rw [if_pos h0] at h
      by_cases h1 : a = e
      · simp only [if_pos h1] at h
        cases r with
        | nil => simp at h
        | cons y r =>
          simp only [List.head?_cons, Option.map_some, List.tail_cons, Option.bind_some] at h
          refine List.pairwise_cons.2 ⟨fun c _ hb => absurd h0 hb, tileRun_apart ptr size l y.1 _ _ _ _ h le_rfl ?_⟩
          have := (List.pairwise_cons.1 hr).2
          rwa [show y.1 + y.2 - y.1 = y.2 by omega]
      · simp only [if_neg h1] at h
        simp at h
    · cases hz : tileStep ptr size (a, e, r) b with
      | none => rw [hz] at h; simp at h
      | some w =>
        rw [hz] at h
        obtain ⟨h1, rfl⟩ := tileStep_some h0 hz
        simp only [] at h1 h
        obtain ⟨h2, h3⟩ := tileRun_within ptr size l _ _ _ _ h
        refine List.pairwise_cons.2 ⟨fun c hc _ hs => ?_, tileRun_apart ptr size l x _ _ _ _ h (by omega) hr⟩
        rcases h3 c hc hs with h4 | ⟨y, hy, h4⟩
        · left
          show ptr b + size b ≤ ptr c
          have := h4.1
          omega
        · have := (List.pairwise_cons.1 hr).1 y hy
          unfold Apart at this ⊢
          simp only [] at this ⊢
          have h6 : a + size b ≤ e := h2
          rcases this with h5 | h5
          · left
            omega
          · right
            omega

/-- A block is split. -/
theorem tileRun_split {ptr size : ℕ → ℕ} {l1 l2 : List ℕ} {p b req : ℕ} {t z : ℕ × ℕ × List (ℕ × ℕ)} (h : tileRun ptr size (l1 ++ p :: l2) t = some z)
    (h0 : 0 < req) (hs : req < size p) (hn : (l1 ++ p :: l2).Nodup) (hb : b ∉ l1 ++ p :: l2) :
    tileRun (update ptr b (ptr p + size p - req)) (update (update size b req) p (size p - req)) (l1 ++ p :: b :: l2) t = some z := by
  rw [List.nodup_append] at hn
  obtain ⟨_, hn2, hn3⟩ := hn
  rw [List.nodup_cons] at hn2
  simp only [List.mem_append, List.mem_cons, not_or] at hb
  obtain ⟨hb1, hb2, hb3⟩ := hb
  rw [tileRun_append] at h ⊢
  rw [← tileRun_congr (l := l1) t (ptr := ptr) (size := size)]
  · cases hz : tileRun ptr size l1 t with
    | none => rw [hz] at h; simp at h
    | some w =>
      rw [hz, Option.bind_some, tileRun_cons] at h
      rw [Option.bind_some, tileRun_cons]
      cases hy : tileStep ptr size w p with
      | none => rw [hy] at h; simp at h
      | some v =>
        obtain ⟨h1, rfl⟩ := tileStep_some (by omega) hy
        rw [hy, Option.bind_some] at h
        rw [tileStep_block (by rw [update_self]; omega) (by rw [update_of_ne (Ne.symm hb2)]; exact h1), Option.bind_some, tileRun_cons]
        rw [tileStep_block (by rw [update_of_ne hb2, update_self]; omega) (by simp only [update_self]; omega), Option.bind_some]
        rw [update_self, update_of_ne hb2, update_self]
        rw [show w.1 + (size p - req) + req = w.1 + size p by omega]
        rw [← h]
        refine tileRun_congr _ fun a ha => ?_
        have e1 : a ≠ b := fun e => hb3 (e ▸ ha)
        have e2 : a ≠ p := fun e => hn2.1 (e ▸ ha)
        simp [update_of_ne e1, update_of_ne e2]
  · intro a ha
    have e1 : a ≠ b := fun e => hb1 (e ▸ ha)
    have e2 : a ≠ p := fun e => hn3 a ha p (by simp) e
    simp [update_of_ne e1, update_of_ne e2]

/-- Two neighbours become one block, with the descriptor of the lower one or of the upper one. -/
theorem tileRun_merge {ptr size : ℕ → ℕ} {l1 l2 : List ℕ} {d p : ℕ} {t z : ℕ × ℕ × List (ℕ × ℕ)} (h : tileRun ptr size (l1 ++ d :: p :: l2) t = some z)
    (hd : size d ≠ 0) (hp : size p ≠ 0) (hn : (l1 ++ d :: p :: l2).Nodup) :
    tileRun ptr (update size d (size d + size p)) (l1 ++ d :: l2) t = some z ∧
      tileRun (update ptr p (ptr d)) (update size p (size p + size d)) (l1 ++ p :: l2) t = some z := by
  rw [List.nodup_append] at hn
  obtain ⟨_, hn2, hn3⟩ := hn
  simp only [List.nodup_cons, List.mem_cons, not_or] at hn2
  obtain ⟨⟨hdp, hd2⟩, hp2, _⟩ := hn2
  rw [tileRun_append] at h
  cases hz : tileRun ptr size l1 t with
  | none => rw [hz] at h; simp at h
  | some w =>
    rw [hz, Option.bind_some, tileRun_cons] at h
    cases hy : tileStep ptr size w d with
    | none => rw [hy] at h; simp at h
    | some v =>
      obtain ⟨h1, rfl⟩ := tileStep_some hd hy
      rw [hy, Option.bind_some, tileRun_cons] at h
      cases hx : tileStep ptr size (w.1 + size d, w.2.1, w.2.2) p with
      | none => rw [hx] at h; simp at h
      | some u =>
        obtain ⟨h2, rfl⟩ := tileStep_some hp hx
        rw [hx, Option.bind_some] at h
        constructor
        · rw [tileRun_append, ← tileRun_congr (l := l1) t (ptr := ptr) (size := size), hz, Option.bind_some, tileRun_cons,
            tileStep_block (by rw [update_self]; omega) h1, Option.bind_some, update_self, ← h, Nat.add_assoc]
          · refine tileRun_congr _ fun a ha => ?_
            have e2 : a ≠ d := fun e => hd2 (e ▸ ha)
            simp [update_of_ne e2]
          · intro a ha
            have e2 : a ≠ d := fun e => hn3 a ha d (by simp) e
            simp [update_of_ne e2]
        · rw [tileRun_append, ← tileRun_congr (l := l1) t (ptr := ptr) (size := size), hz, Option.bind_some, tileRun_cons,
            tileStep_block (by rw [update_self]; omega) (by rw [update_self]; exact h1), Option.bind_some, update_self, ← h,
            show w.1 + (size p + size d) = w.1 + size d + size p by omega]
          · refine tileRun_congr _ fun a ha => ?_
            have e2 : a ≠ p := fun e => hp2 (e ▸ ha)
            simp [update_of_ne e2]
          · intro a ha
            have e2 : a ≠ p := fun e => hn3 a ha p (by simp) e
            simp [update_of_ne e2]

end Hila
