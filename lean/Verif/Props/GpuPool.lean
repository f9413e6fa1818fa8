import Verif.Lemmas.GpuCalls
import Verif.Lemmas.GpuMax

/-!
# C93: the memory pool for graphics processors
-/

namespace Hila

open Function

/-- The states that a program can reach. -/
def GOk (sys : ℕ → ℕ) (mem : ℕ) (s : GPool) (live : List (ℕ × ℕ)) : Prop := (GStart s ∧ live = []) ∨ ∃ areas, GAt sys mem s live areas

theorem gpAlloc_ok {sys : ℕ → ℕ} {mem : ℕ} {s : GPool} {live : List (ℕ × ℕ)} (h : GOk sys mem s live) {req : ℕ} (h0 : 0 < req) :
    ∃ s' r, gpAlloc sys mem s req = some (s', r) ∧ ∀ a, r = some a → GOk sys mem s' ((a, req) :: live) := by
  have run : ∀ t areas, GAt sys mem t live areas → ∃ s' r, gpAllocRec sys mem 2 t req = some (s', r) ∧ ∀ a, r = some a → GOk sys mem s' ((a, req) :: live) := by
    rintro t areas ⟨M, F, I, W, e, hr, hc, hl, hal, hu, ht, hst⟩
    by_cases hex : ∃ b ∈ F, gpRound req ≤ t.size b
    · obtain ⟨s', a, h1, h2, _⟩ := gpAllocRec_found 1 hr hc hl hal hu ht hst h0 hex
      exact ⟨s', some a, h1, fun a' ha' => Or.inr ⟨areas, by rw [← Option.some.inj ha']; exact h2⟩⟩
    · rcases gpAllocRec_more hr hc hl hal hu ht hst h0 (fun b hb => by
        by_contra hh
        exact hex ⟨b, hb, by omega⟩) with ⟨_, h1⟩ | ⟨_, s', a, h1, h2, _⟩
      · exact ⟨t, none, h1, by simp⟩
      · exact ⟨s', some a, h1, fun a' ha' => by obtain rfl := Option.some.inj ha'; exact Or.inr ⟨_, h2⟩⟩
  unfold gpAlloc
  rcases h with ⟨hs, rfl⟩ | ⟨areas, hA⟩
  · rw [hs.1, if_neg (by simp)]
    obtain ⟨t, h1, h2, _⟩ := gpInit_at (sys := sys) (mem := mem) hs
    rw [h1, Option.bind_some]
    exact run t _ h2
  · have hst : s.started = true := by
      obtain ⟨M, F, I, W, e, hr, hc, hl, hal, hu, ht, hst⟩ := hA
      exact hst
    rw [hst, if_pos rfl, Option.bind_some]
    exact run s areas hA

theorem gpFree_ok {sys : ℕ → ℕ} {mem : ℕ} {s : GPool} {live : List (ℕ × ℕ)} (h : GOk sys mem s live) (hs : s.slabs.Pairwise Apart) (a : ℕ) :
    (a ∉ live.map Prod.fst ∧ gpFree s a = some none) ∨
    (a ∈ live.map Prod.fst ∧ ∃ s', gpFree s a = some (some s') ∧ GOk sys mem s' (live.filter fun l => l.1 ≠ a)) := by
  rcases h with ⟨h, rfl⟩ | ⟨areas, hA⟩
  · left
    refine ⟨by simp, ?_⟩
    obtain ⟨_, _, hc, _, _, hu, _⟩ := h
    unfold gpFree
    rw [hc, hu]
    rfl
  · rcases gpFree_at hA hs a with h1 | ⟨h1, s', h2, h3, _⟩
    · exact Or.inl h1
    · exact Or.inr ⟨h1, s', h2, Or.inr ⟨areas, h3⟩⟩

theorem gpRun_ok {sys : ℕ → ℕ} {mem : ℕ} : ∀ (ops : List GOp) (s : GPool) (live : List (ℕ × ℕ)), GOk sys mem s live → (∀ req, GOp.alloc req ∈ ops → 0 < req) →
    (∀ pre, pre <+: ops → ∀ st, gpRun sys mem pre (s, live) = some (some st) → st.1.slabs.Pairwise Apart) →
    ∃ r, gpRun sys mem ops (s, live) = some r ∧ ∀ st, r = some st → GOk sys mem st.1 st.2 ∧ st.1.slabs.Pairwise Apart
  | [], s, live, h, _, hs => ⟨some (s, live), rfl, fun st hst => by
      rw [← Option.some.inj hst]
      exact ⟨h, hs [] (List.nil_prefix) (s, live) rfl⟩⟩
  | op :: ops, s, live, h, hp, hs => by
    have hs0 := hs [] List.nil_prefix (s, live) rfl
    have next : ∀ s' live', gpStep sys mem (s, live) op = some (some (s', live')) → GOk sys mem s' live' →
        ∃ r, gpRun sys mem (op :: ops) (s, live) = some r ∧ ∀ st, r = some st → GOk sys mem st.1 st.2 ∧ st.1.slabs.Pairwise Apart := by
      intro s' live' h1 h2
      obtain ⟨r, h3, h4⟩ := gpRun_ok ops s' live' h2 (fun req hr => hp req (by simp [hr])) (fun pre hpre st hst =>
        hs (op :: pre) ((List.prefix_cons_inj op).2 hpre) st (by rw [gpRun, h1]; exact hst))
      exact ⟨r, by rw [gpRun, h1]; exact h3, h4⟩
    cases op with
    | alloc req =>
      obtain ⟨s', r, h1, h2⟩ := gpAlloc_ok h (hp req (by simp))
      cases r with
      | none =>
        refine ⟨none, ?_, by simp⟩
        rw [gpRun]
        unfold gpStep
        simp only [h1]
        rfl
      | some a =>
        refine next s' ((a, req) :: live) ?_ (h2 a rfl)
        unfold gpStep
        simp only [h1]
        rfl
    | free a =>
      rcases gpFree_ok h hs0 a with ⟨_, h1⟩ | ⟨_, s', h1, h2⟩
      · refine ⟨none, ?_, by simp⟩
        rw [gpRun]
        unfold gpStep
        simp only [h1]
        rfl
      · refine next s' _ ?_ h2
        unfold gpStep
        simp only [h1]
        rfl

theorem reached_ok {sys : ℕ → ℕ} {mem : ℕ} {s : GPool} {ops : List GOp} (hs : GStart s) (hp : ∀ req, GOp.alloc req ∈ ops → 0 < req) (hsys : SysOk sys mem s ops)
    {st : GPool × List (ℕ × ℕ)} (hst : gpRun sys mem ops (s, []) = some (some st)) : GOk sys mem st.1 st.2 ∧ st.1.slabs.Pairwise Apart := by
  obtain ⟨r, h1, h2⟩ := gpRun_ok ops s [] (Or.inl ⟨hs, rfl⟩) hp hsys
  rw [hst] at h1
  exact h2 st (Option.some.inj h1).symm

theorem usable_inside {areas slabs : List (ℕ × ℕ)} (h : UsableParts areas slabs) {y : ℕ × ℕ} (hy : y ∈ areas) : ∃ z ∈ slabs, Inside y z := by
  unfold UsableParts at h
  obtain ⟨i, hi, rfl⟩ := List.getElem_of_mem hy
  have hl := h.length_eq
  have h3 := List.Forall₂.get h hi (by omega)
  simp only [List.get_eq_getElem] at h3
  exact ⟨slabs[i]'(by omega), List.getElem_mem _, by unfold Inside; omega⟩

/-- C93 (the size that is taken). It is the least multiple of 256 that is not less than the size asked for. -/
theorem C93_round (n : ℕ) : n ≤ gpRound n ∧ 256 ∣ gpRound n ∧ ∀ k, n ≤ 256 * k → gpRound n ≤ 256 * k := by
  unfold gpRound
  split <;> refine ⟨?_, ?_, fun k hk => ?_⟩ <;> omega

/-- C93 (no memory is given out twice). Whatever a program asks for and gives back, in whatever order: no call follows a null pointer or runs forever; the allocations in use
lie apart from one another and inside the memory that came from the system, with their sizes rounded up to multiples of 256; and the size in use is their sum. -/
theorem C93_safe {sys : ℕ → ℕ} {mem : ℕ} {s : GPool} {ops : List GOp} (hs : GStart s) (hp : ∀ req, GOp.alloc req ∈ ops → 0 < req) (hsys : SysOk sys mem s ops) :
    ∃ r, gpRun sys mem ops (s, []) = some r ∧ ∀ st, r = some st →
      (st.2.Pairwise fun x y => Apart (takes x) (takes y)) ∧ (∀ l ∈ st.2, ∃ y ∈ st.1.slabs, Inside (takes l) y) ∧
      st.1.used = (st.2.map fun l => (takes l).2).sum := by
  obtain ⟨r, h1, h2⟩ := gpRun_ok ops s [] (Or.inl ⟨hs, rfl⟩) hp hsys
  refine ⟨r, h1, fun st hst => ?_⟩
  obtain ⟨h3, h4⟩ := h2 st hst
  rcases h3 with ⟨h3, h5⟩ | ⟨areas, M, F, I, W, e, hr, hc, hl, hal, hu, ht, hstt⟩
  · rw [h5]
    exact ⟨List.Pairwise.nil, by simp, h3.2.2.2.2.2.2.2.1⟩
  · have hap := usable_apart hu h4
    refine ⟨?_, ?_, ?_⟩
    · have : (st.2.map takes).Pairwise Apart := by
        rw [hl, List.pairwise_map]
        refine hr.ndI.imp_of_mem ?_
        intro a b ha hb hab
        have ha' := (hr.flagI a).1 ha
        have hb' := (hr.flagI b).1 hb
        exact rep_apart hr hap ha'.1 hb'.1 hab ha'.2.2.1 hb'.2.2.1
      exact List.pairwise_map.1 this
    · intro l hl1
      obtain ⟨b, hb, h6⟩ := live_used hl hl1
      have hb' := (hr.flagI b).1 hb
      obtain ⟨y, hy, h7⟩ := rep_inside hr hb'.1 hb'.2.2.1
      obtain ⟨z, hz, h8⟩ := usable_inside hu hy
      refine ⟨z, hz, ?_⟩
      rw [← h6]
      unfold Inside at h7 h8 ⊢
      omega
    · rw [hr.sum]
      have h6 := congrArg (List.map Prod.snd) hl
      rw [List.map_map, List.map_map] at h6
      exact congrArg List.sum h6.symm

/-- C93 (what is given back). A program can give back exactly the addresses that it has in use; any other address ends it. -/
theorem C93_free {sys : ℕ → ℕ} {mem : ℕ} {s : GPool} {ops : List GOp} (hs : GStart s) (hp : ∀ req, GOp.alloc req ∈ ops → 0 < req) (hsys : SysOk sys mem s ops)
    {st : GPool × List (ℕ × ℕ)} (hst : gpRun sys mem ops (s, []) = some (some st)) (a : ℕ) :
    (a ∈ st.2.map Prod.fst ↔ ∃ s', gpFree st.1 a = some (some s')) ∧ (a ∉ st.2.map Prod.fst ↔ gpFree st.1 a = some none) := by
  obtain ⟨h1, h2⟩ := reached_ok hs hp hsys hst
  rcases gpFree_ok h1 h2 a with ⟨h3, h4⟩ | ⟨h3, s', h4, _⟩
  · simp [h3, h4]
  · simp [h3, h4]

/-- C93 (no fragments, best fit). Whatever the program did before: if anywhere in the slabs there is an unused interval as large as the request, the call succeeds without new
memory from the system. The memory is the upper end of a gap, and no gap that is large enough is smaller than this one. In particular, after everything was given back each
slab is one gap. Less than 256 bytes at the end of a slab are not used. -/
theorem C93_best_fit {sys : ℕ → ℕ} {mem : ℕ} {s : GPool} {ops : List GOp} (hs : GStart s) (hp : ∀ req, GOp.alloc req ∈ ops → 0 < req) (hsys : SysOk sys mem s ops)
    {st : GPool × List (ℕ × ℕ)} (hst : gpRun sys mem ops (s, []) = some (some st)) :
    ∃ areas, UsableParts areas st.1.slabs ∧ ∀ req, 0 < req → (∃ x, IsGap areas st.2 x ∧ gpRound req ≤ x.2) →
      ∃ s' a g, gpAlloc sys mem st.1 req = some (s', some a) ∧ s'.slabs = st.1.slabs ∧ IsMaxGap areas st.2 g ∧ gpRound req ≤ g.2 ∧
        a + gpRound req = g.1 + g.2 ∧ ∀ g', IsMaxGap areas st.2 g' → gpRound req ≤ g'.2 → g.2 ≤ g'.2 := by
  obtain ⟨h1, h2⟩ := reached_ok hs hp hsys hst
  rcases h1 with ⟨h1, h3⟩ | ⟨areas, M, F, I, W, e, hr, hc, hl, hal, hu, ht, hstt⟩
  · refine ⟨[], ?_, fun req _ ⟨x, hx, _⟩ => ?_⟩
    · have : st.1.slabs = [] := h1.2.2.2.2.2.2.2.2
      rw [this]
      exact List.Forall₂.nil
    · obtain ⟨_, ⟨y, hy, _⟩, _⟩ := hx
      simp at hy
  · have hap := usable_apart hu h2
    refine ⟨areas, hu, fun req h0 ⟨x, hx, hxr⟩ => ?_⟩
    obtain ⟨b, hb, h4⟩ := gap_free hr hc hl hx
    obtain ⟨s', a, h5, h6, h7, q, hq, h8, h9, h10⟩ := gpAllocRec_found (sys := sys) (mem := mem) 1 hr hc hl hal hu ht hstt h0 ⟨b, hb, by
      unfold Inside at h4
      simp only [] at h4
      omega⟩
    -- a gap in which a free block lies is this block
    have hmax : ∀ c ∈ F, IsMaxGap areas st.2 (st.1.ptr c, st.1.size c) := fun c hcF => by
      refine ⟨free_gap hr hap hl hcF, fun y hy hin => ?_⟩
      obtain ⟨d, hd, h11⟩ := gap_free hr hc hl hy
      have hcM := (hr.flagF c).1 hcF
      have hdM := (hr.flagF d).1 hd
      have hc0 := hr.pos c hcM.1 hcM.2
      have hd0 := hr.pos d hdM.1 hdM.2
      by_cases hcd : c = d
      · subst hcd
        unfold Inside at hin h11
        simp only [] at hin h11
        exact Prod.ext (by show y.1 = st.1.ptr c; omega) (by show y.2 = st.1.size c; omega)
      · exfalso
        have := rep_apart hr hap hcM.1 hdM.1 hcd hc0 hd0
        unfold Inside at hin h11
        unfold Apart at this
        simp only [] at this hin h11
        omega
    refine ⟨s', a, (st.1.ptr q, st.1.size q), ?_, h7, hmax q hq, h9, h8, fun g' hg' hr' => ?_⟩
    · unfold gpAlloc
      rw [hstt, if_pos rfl, Option.bind_some]
      exact h5
    · obtain ⟨d, hd, h11⟩ := gap_free hr hc hl hg'.1
      have := hg'.2 _ (hmax d hd).1 h11
      have h12 := h10 d hd (by
        rw [← this] at hr'
        exact hr')
      rw [← this]
      exact h12

/-- C93 (the end of the memory). After the first call, a request ends the program only if no gap is large enough and the pool thinks that the device has no more memory. -/
theorem C93_end {sys : ℕ → ℕ} {mem : ℕ} {s : GPool} {ops : List GOp} (hs : GStart s) (hp : ∀ req, GOp.alloc req ∈ ops → 0 < req) (hsys : SysOk sys mem s ops)
    {st : GPool × List (ℕ × ℕ)} (hst : gpRun sys mem ops (s, []) = some (some st)) (h1st : st.1.slabs ≠ []) :
    ∃ areas, UsableParts areas st.1.slabs ∧ st.1.total = (st.1.slabs.map Prod.snd).sum + (areas.tail.map Prod.snd).sum ∧
      ∀ req, 0 < req → ((∃ s', gpAlloc sys mem st.1 req = some (s', none)) ↔ (∀ x, IsGap areas st.2 x → x.2 < gpRound req) ∧
        ¬ (10 * st.1.total < 7 * mem ∧ 10 * (max (mem / 5) (gpRound req) + st.1.total) < 9 * mem)) := by
  obtain ⟨h1, h2⟩ := reached_ok hs hp hsys hst
  rcases h1 with ⟨h1, h3⟩ | ⟨areas, M, F, I, W, e, hr, hc, hl, hal, hu, ht, hstt⟩
  · exact absurd h1.2.2.2.2.2.2.2.2 h1st
  · have hap := usable_apart hu h2
    refine ⟨areas, hu, ht, fun req h0 => ?_⟩
    have hrun : gpAlloc sys mem st.1 req = gpAllocRec sys mem 2 st.1 req := by
      unfold gpAlloc
      rw [hstt, if_pos rfl, Option.bind_some]
    rw [hrun]
    by_cases hex : ∃ b ∈ F, gpRound req ≤ st.1.size b
    · obtain ⟨s', a, h5, _⟩ := gpAllocRec_found (sys := sys) (mem := mem) 1 hr hc hl hal hu ht hstt h0 hex
      rw [h5]
      constructor
      · rintro ⟨s'', h6⟩
        simp at h6
      · rintro ⟨h6, _⟩
        obtain ⟨b, hb, h7⟩ := hex
        have := h6 _ (free_gap hr hap hl hb)
        simp only [] at this
        omega
    · have hno : ∀ b ∈ F, st.1.size b < gpRound req := fun b hb => by
        by_contra hh
        exact hex ⟨b, hb, by omega⟩
      have hgaps : ∀ x, IsGap areas st.2 x → x.2 < gpRound req := fun x hx => by
        obtain ⟨b, hb, h4⟩ := gap_free hr hc hl hx
        have := hno b hb
        unfold Inside at h4
        simp only [] at h4
        omega
      rcases gpAllocRec_more (sys := sys) (mem := mem) hr hc hl hal hu ht hstt h0 hno with ⟨h5, h6⟩ | ⟨h5, s', a, h6, _⟩
      · rw [h6]
        exact ⟨fun _ => ⟨hgaps, h5⟩, fun _ => ⟨_, rfl⟩⟩
      · rw [h6]
        constructor
        · rintro ⟨s'', h7⟩
          simp at h7
        · rintro ⟨_, h7⟩
          exact absurd h5 h7

/-- C93 (alignment, in part). The addresses are multiples of 256 if those of the slabs are and if a fifth of the memory of the device is a multiple of 256. What is missing:
on any other device they need not be (`C93_aligned_wrong`). -/
theorem C93_aligned_partial {sys : ℕ → ℕ} {mem : ℕ} {s : GPool} {ops : List GOp} (hs : GStart s) (hp : ∀ req, GOp.alloc req ∈ ops → 0 < req) (hsys : SysOk sys mem s ops)
    {st : GPool × List (ℕ × ℕ)} (hst : gpRun sys mem ops (s, []) = some (some st)) (hm : 256 ∣ mem / 5) (hk : ∀ k, 256 ∣ sys k) :
    ∀ l ∈ st.2, 256 ∣ l.1 := by
  obtain ⟨h1, h2⟩ := reached_ok hs hp hsys hst
  rcases h1 with ⟨h1, h3⟩ | ⟨areas, M, F, I, W, e, hr, hc, hl, hal, hu, ht, hstt⟩
  · rw [h3]
    simp
  · intro l hl1
    obtain ⟨b, hb, h6⟩ := live_used hl hl1
    have hb' := (hr.flagI b).1 hb
    have := (hal ⟨Nat.mod_eq_zero_of_dvd hm, fun k => Nat.mod_eq_zero_of_dvd (hk k)⟩ b hb'.1).2 hb'.2.2.1
    have h7 : st.1.ptr b = l.1 := congrArg Prod.fst h6
    rw [← h7]
    exact Nat.dvd_of_mod_eq_zero this

/-- C93 (the largest size in use). The maximum that the report prints is the largest sum of the sizes of the allocations in use that there was between two calls. -/
theorem C93_maximum {sys : ℕ → ℕ} {mem : ℕ} {s : GPool} {ops : List GOp} (hs : GStart s) (hz : s.maxUsed = 0) (hp : ∀ req, GOp.alloc req ∈ ops → 0 < req)
    (hsys : SysOk sys mem s ops) {st : GPool × List (ℕ × ℕ)} (hst : gpRun sys mem ops (s, []) = some (some st)) :
    IsGreatest {n | ∃ pre, pre <+: ops ∧ ∃ t, gpRun sys mem pre (s, []) = some (some t) ∧ (t.2.map fun l => (takes l).2).sum = n} st.1.maxUsed := by
  have hu : UseOk s := ⟨by rw [hs.2.2.2.2.2.2.2.1]; exact Nat.zero_le _, fun _ => ⟨hs.2.2.2.2.2.2.2.1, hz⟩⟩
  obtain ⟨_, h2, h3⟩ := gpRun_use ops hst hu
  have sum : ∀ pre, pre <+: ops → ∀ t, gpRun sys mem pre (s, []) = some (some t) → (t.2.map fun l => (takes l).2).sum = t.1.used := fun pre h t ht => by
    obtain ⟨r, h4, h5⟩ := C93_safe hs (fun req h6 => hp req (h.subset h6)) fun p h6 => hsys p (h6.trans h)
    rw [ht] at h4
    exact ((h5 t (Option.some.inj h4).symm).2.2).symm
  refine ⟨?_, ?_⟩
  · rcases h3 with h3 | ⟨pre, h4, t, h5, h6⟩
    · exact ⟨[], List.nil_prefix, (s, []), rfl, by rw [h3]; exact hz.symm⟩
    · exact ⟨pre, h4, t, h5, by rw [sum pre h4 t h5, h6]⟩
  · rintro n ⟨pre, h4, t, h5, rfl⟩
    rw [sum pre h4 t h5]
    exact h2 pre h4 t h5

end Hila
