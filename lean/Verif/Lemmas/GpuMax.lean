import Verif.Model.GpuPoolSpec
import Mathlib.Order.Lattice
import Mathlib.Order.Bounds.Defs

/-!
# Lemmas for C93: the largest size in use
-/

namespace Hila

/-- Neither the size in use nor its maximum changes. -/
def SameUse (s t : GPool) : Prop := t.used = s.used ∧ t.maxUsed = s.maxUsed ∧ t.started = s.started

theorem SameUse.trans {s t u : GPool} (h : SameUse s t) (h' : SameUse t u) : SameUse s u := 
  ⟨h'.1.trans h.1, h'.2.1.trans h.2.1, h'.2.2.trans h.2.2⟩

theorem gpGet_use {s : GPool} {r : ℕ × GPool} (h : gpGet s = some r) : SameUse s r.2 := by
  unfold gpGet at h
  simp only [Option.map_eq_some_iff] at h
  obtain ⟨a, -, rfl⟩ := h
  by_cases hu : s.unused = none
  · simp only [if_pos hu]; exact ⟨rfl, rfl, rfl⟩
  · simp only [if_neg hu]; exact ⟨rfl, rfl, rfl⟩

theorem gpUnfree_use (s : GPool) (p : ℕ) : SameUse s (gpUnfree s p) := ⟨rfl, rfl, rfl⟩

theorem gpMergeDown_use {s t : GPool} {p : ℕ} (h : gpMergeDown s p = some t) : SameUse s t := by
  unfold gpMergeDown at h
  simp only [Option.map_eq_some_iff] at h
  obtain ⟨a, -, rfl⟩ := h
  split <;> exact ⟨rfl, rfl, rfl⟩

theorem gpMergeUp_use {s t : GPool} {p : ℕ} (h : gpMergeUp s p = some t) : SameUse s t := by
  unfold gpMergeUp at h
  simp only [Option.map_eq_some_iff] at h
  obtain ⟨a, -, rfl⟩ := h
  split <;> split <;> exact ⟨rfl, rfl, rfl⟩

theorem gpMarkFree_use (s : GPool) (p : ℕ) : SameUse s (gpMarkFree s p) := ⟨rfl, rfl, rfl⟩

theorem gpSplit_use {s : GPool} {p req : ℕ} {r : ℕ × GPool} (h : gpSplit s p req = some r) : SameUse s r.2 := by
  unfold gpSplit at h
  simp only [Option.map_eq_some_iff] at h
  obtain ⟨a, ha, rfl⟩ := h
  have := gpGet_use ha
  exact ⟨this.1, this.2.1, this.2.2⟩

theorem gpAddTop_use {s t : GPool} {p : ℕ} (h : gpAddTop s p = some t) : SameUse s t := by
  unfold gpAddTop at h
  dsimp only at h
  split at h
  · cases h; exact ⟨rfl, rfl, rfl⟩
  · simp only [Option.map_eq_some_iff] at h
    obtain ⟨b, -, rfl⟩ := h
    exact ⟨rfl, rfl, rfl⟩

theorem gpExtend_use {sys : ℕ → ℕ} {s t : GPool} {m : ℕ} (h : gpExtend sys s m = some t) : SameUse s t := by
  unfold gpExtend at h
  simp only [Option.bind_eq_some_iff, Option.map_eq_some_iff] at h
  obtain ⟨r, hr, s1, h1, r2, hr2, s2, h2, rfl⟩ := h
  have a1 := gpGet_use hr
  have a2 := gpAddTop_use h1
  have a3 := gpGet_use hr2
  have a4 := gpAddTop_use h2
  exact ((SameUse.trans a1 a2).trans a3).trans a4

theorem gpTake_use {s : GPool} {p req : ℕ} {x : GPool × ℕ} (h : gpTake s p req = some x) :
    x.1.used = s.used + req ∧ x.1.maxUsed = max s.maxUsed x.1.used ∧ x.1.started = s.started := by
  unfold gpTake at h
  simp only [Option.map_eq_some_iff] at h
  obtain ⟨ps, hps, rfl⟩ := h
  have hu : SameUse s ps.2 := by
    split at hps
    · exact gpSplit_use hps
    · cases hps; exact gpUnfree_use s p
  dsimp only
  rw [hu.1, hu.2.1, hu.2.2]
  refine ⟨rfl, ?_, rfl⟩
  rw [max_def]
  split <;> split <;> omega

theorem gpAllocRec_use {sys : ℕ → ℕ} {mem : ℕ} : ∀ (depth : ℕ) {s t : GPool} {req a : ℕ}, gpAllocRec sys mem depth s req = some (t, some a) →
    s.used ≤ t.used ∧ t.maxUsed = max s.maxUsed t.used ∧ t.started = s.started := by
  intro depth
  induction depth with
  | zero => intro s t req a h; cases h
  | succ depth ih =>
    intro s t req a h
    rw [gpAllocRec] at h
    simp only [Option.bind_eq_some_iff] at h
    obtain ⟨r, -, h⟩ := h
    by_cases hr : r.1 = true
    · rw [if_pos hr] at h
      simp only [Option.bind_eq_some_iff, Option.map_eq_some_iff] at h
      obtain ⟨p, -, x, hx, he⟩ := h
      obtain ⟨h1, h2⟩ := gpTake_use hx
      cases he
      exact ⟨by omega, h2⟩
    · rw [if_neg hr] at h
      generalize hm : (if mem / 5 > gpRound req then mem / 5 else gpRound req) = m at h
      by_cases hc : 10 * s.total < 7 * mem ∧ 10 * (m + s.total) < 9 * mem
      · rw [if_pos hc] at h
        simp only [Option.bind_eq_some_iff] at h
        obtain ⟨s1, h1, h2⟩ := h
        have e := gpExtend_use h1
        have := ih h2
        rw [e.1, e.2.1, e.2.2] at this
        exact this
      · rw [if_neg hc] at h
        cases h

theorem gpAlloc_use {sys : ℕ → ℕ} {mem : ℕ} {s t : GPool} {req a : ℕ} (h : gpAlloc sys mem s req = some (t, some a))
    (hs : s.started = false → s.used = 0 ∧ s.maxUsed = 0) : t.maxUsed = max s.maxUsed t.used ∧ t.started = true := by
  unfold gpAlloc at h
  simp only [Option.bind_eq_some_iff] at h
  obtain ⟨s1, h1, h2⟩ := h
  have h3 := (gpAllocRec_use 2 h2).2
  split at h1
  · next hy => cases h1; exact ⟨h3.1, h3.2.trans hy⟩
  · next hn =>
    have hz := hs (by simpa using hn)
    unfold gpInit at h1
    simp only [Option.map_eq_some_iff] at h1
    obtain ⟨rs, hrs, rfl⟩ := h1
    refine ⟨?_, h3.2.trans (gpGet_use hrs).2.2⟩
    rw [h3.1, hz.2]

theorem gpJoin_use {s t : GPool} {f : ℕ} (h : gpJoin s f = some t) : SameUse s t := by
  unfold gpJoin at h
  dsimp only at h
  split at h
  · simp only [Option.bind_eq_some_iff] at h
    obtain ⟨s1, h1, h2⟩ := h
    split at h2
    · simp only [Option.bind_eq_some_iff] at h2
      obtain ⟨u, -, h3⟩ := h2
      exact (gpMergeDown_use h1).trans (gpMergeDown_use h3)
    · cases h2; exact gpMergeDown_use h1
  · split at h
    · exact gpMergeUp_use h
    · cases h; exact gpMarkFree_use _ _

theorem gpFree_use {s t : GPool} {a : ℕ} (h : gpFree s a = some (some t)) : t.used ≤ s.used ∧ t.maxUsed = s.maxUsed ∧ t.started = s.started := by
  unfold gpFree at h
  simp only [Option.bind_eq_some_iff] at h
  obtain ⟨r, -, h⟩ := h
  cases r with
  | none => cases h
  | some f =>
    simp only [Option.map_eq_some_iff] at h
    obtain ⟨s1, h1, h2⟩ := h
    cases h2
    have := gpJoin_use h1
    exact ⟨by rw [this.1]; exact Nat.sub_le _ _, this.2⟩

/-- What is needed of the state to keep the maximum right. -/
def UseOk (s : GPool) : Prop := s.used ≤ s.maxUsed ∧ (s.started = false → s.used = 0 ∧ s.maxUsed = 0)

theorem gpStep_use {sys : ℕ → ℕ} {mem : ℕ} {st st' : GPool × List (ℕ × ℕ)} {op : GOp} (h : gpStep sys mem st op = some (some st')) (hs : UseOk st.1) :
    st'.1.maxUsed = max st.1.maxUsed st'.1.used ∧ UseOk st'.1 := by
  cases op with
  | alloc req =>
    simp only [gpStep, Option.map_eq_some_iff] at h
    obtain ⟨⟨t, o⟩, h1, a, h2, rfl⟩ := h
    dsimp only at h2
    subst h2
    obtain ⟨h3, h4⟩ := gpAlloc_use h1 hs.2
    refine ⟨h3, ?_, fun h5 => ?_⟩
    · dsimp only
      rw [h3]
      exact le_max_right _ _
    · dsimp only at h5
      rw [h4] at h5
      cases h5
  | free a =>
    simp only [gpStep, Option.map_eq_some_iff] at h
    obtain ⟨x, h1, t, rfl, rfl⟩ := h
    obtain ⟨h3, h4, h5⟩ := gpFree_use h1
    have h6 := hs.1
    refine ⟨?_, ?_, fun h7 => ?_⟩
    · dsimp only
      rw [h4, max_eq_left (by omega)]
    · dsimp only
      omega
    · dsimp only at h7 ⊢
      have := hs.2 (h5 ▸ h7)
      omega

/-- The maximum over a run, from any state. -/
theorem gpRun_use {sys : ℕ → ℕ} {mem : ℕ} : ∀ (ops : List GOp) {st st' : GPool × List (ℕ × ℕ)}, gpRun sys mem ops st = some (some st') → UseOk st.1 →
    st.1.maxUsed ≤ st'.1.maxUsed ∧ (∀ pre, pre <+: ops → ∀ t, gpRun sys mem pre st = some (some t) → t.1.used ≤ st'.1.maxUsed) ∧
      (st'.1.maxUsed = st.1.maxUsed ∨ ∃ pre, pre <+: ops ∧ ∃ t, gpRun sys mem pre st = some (some t) ∧ t.1.used = st'.1.maxUsed) := by
  intro ops
  induction ops with
  | nil =>
    intro st st' h hs
    cases h
    refine ⟨Nat.le_refl _, fun pre hp t ht => ?_, Or.inl rfl⟩
    rw [List.prefix_nil.1 hp] at ht
    cases ht
    exact hs.1
  | cons op ops ih =>
    intro st st' h hs
    simp only [gpRun, Option.bind_eq_some_iff] at h
    obtain ⟨x, hx, h⟩ := h
    cases x with
    | none => cases h
    | some s1 =>
      obtain ⟨h1, h2⟩ := gpStep_use hx hs
      obtain ⟨h3, h4, h5⟩ := ih h h2
      have h6 : st.1.maxUsed ≤ s1.1.maxUsed := by rw [h1]; exact le_max_left _ _
      have run : ∀ pre, gpRun sys mem (op :: pre) st = gpRun sys mem pre s1 := fun pre => by
        simp only [gpRun, hx, Option.bind_some]
      refine ⟨h6.trans h3, fun pre hp t ht => ?_, ?_⟩
      · rcases List.prefix_cons_iff.1 hp with rfl | ⟨p, rfl, hp'⟩
        · cases ht
          exact hs.1.trans (h6.trans h3)
        · rw [run] at ht
          exact h4 p hp' t ht
      · rcases h5 with h5 | ⟨p, hp, t, ht, he⟩
        · by_cases hle : s1.1.used ≤ st.1.maxUsed
          · exact Or.inl (by rw [h5, h1, max_eq_left hle])
          · refine Or.inr ⟨[op], by simp, s1, ?_, ?_⟩
            · rw [run]; rfl
            · rw [h5, h1, max_eq_right (by omega)]
        · exact Or.inr ⟨op :: p, by simpa using hp, t, by rw [run]; exact ht, he⟩

end Hila
