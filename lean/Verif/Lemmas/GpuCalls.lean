import Mathlib.Data.List.Forall2
import Verif.Lemmas.GpuHist

/-!
# The calls keep the invariant
-/

namespace Hila

open Function

/-- The pool after the initialisation: its blocks tile the usable parts of the slabs, no two free blocks are neighbours, the used blocks are those of the program. -/
def GAt (sys : ℕ → ℕ) (mem : ℕ) (s : GPool) (live areas : List (ℕ × ℕ)) : Prop :=
  ∃ M F I W e, GRep s M F I W areas none (e, e) ∧ Coal s.isFree M ∧ live.map takes = I.map (fun b => (s.ptr b, s.size b)) ∧
    ((mem / 5 % 256 = 0 ∧ ∀ k, sys k % 256 = 0) → ∀ b ∈ M, s.size b % 256 = 0 ∧ (s.size b ≠ 0 → s.ptr b % 256 = 0)) ∧
    UsableParts areas s.slabs ∧ s.total = (s.slabs.map Prod.snd).sum + (areas.tail.map Prod.snd).sum ∧ s.started = true

theorem usable_apart {areas slabs : List (ℕ × ℕ)} (h : UsableParts areas slabs) (hs : slabs.Pairwise Apart) : areas.Pairwise Apart := by
  unfold UsableParts at h
  induction h with
  | nil => exact List.Pairwise.nil
  | @cons a s as ss h1 h2 ih =>
    rw [List.pairwise_cons] at hs
    refine List.pairwise_cons.2 ⟨fun b hb => ?_, ih hs.2⟩
    obtain ⟨i, hi, rfl⟩ := List.getElem_of_mem hb
    have hl := h2.length_eq
    have h3 := List.Forall₂.get h2 hi (by omega)
    have h4 := hs.1 (ss[i]'(by omega)) (List.getElem_mem _)
    simp only [List.get_eq_getElem] at h3
    unfold Apart at h4 ⊢
    omega

theorem rep_apart {s : GPool} {M F I W : List ℕ} {areas : List (ℕ × ℕ)} {X : Option ℕ} {e : ℕ} (h : GRep s M F I W areas X (e, e)) (ha : areas.Pairwise Apart)
    {b c : ℕ} (hb : b ∈ M) (hc : c ∈ M) (hbc : b ≠ c) (hb0 : s.size b ≠ 0) (hc0 : s.size c ≠ 0) : Apart (s.ptr b, s.size b) (s.ptr c, s.size c) := by
  obtain ⟨x, n, r, rfl, h2⟩ := h.tile
  have := tileRun_apart s.ptr s.size M x x (x + n) r e h2 le_rfl (by rwa [show x + n - x = n by omega])
  haveI hsym : Std.Symm fun b c => s.size b ≠ 0 → s.size c ≠ 0 → Apart (s.ptr b, s.size b) (s.ptr c, s.size c) :=
    ⟨fun b c h h1 h2 => (h h2 h1).symm⟩
  exact this.forall hb hc hbc hb0 hc0

theorem rep_inside {s : GPool} {M F I W : List ℕ} {areas : List (ℕ × ℕ)} {X : Option ℕ} {e : ℕ} (h : GRep s M F I W areas X (e, e))
    {b : ℕ} (hb : b ∈ M) (hb0 : s.size b ≠ 0) : ∃ y ∈ areas, Inside (s.ptr b, s.size b) y := by
  obtain ⟨x, n, r, rfl, h2⟩ := h.tile
  rcases (tileRun_within s.ptr s.size M x (x + n) r e h2).2 b hb hb0 with h3 | ⟨y, hy, h3⟩
  · exact ⟨(x, n), by simp, h3⟩
  · exact ⟨y, by simp [hy], h3⟩

theorem live_used {s : GPool} {I : List ℕ} {live : List (ℕ × ℕ)} (hl : live.map takes = I.map (fun b => (s.ptr b, s.size b))) {l : ℕ × ℕ} (h : l ∈ live) :
    ∃ b ∈ I, (s.ptr b, s.size b) = takes l := by
  have : takes l ∈ live.map takes := List.mem_map_of_mem h
  rw [hl] at this
  exact List.mem_map.1 this

theorem used_live {s : GPool} {I : List ℕ} {live : List (ℕ × ℕ)} (hl : live.map takes = I.map (fun b => (s.ptr b, s.size b))) {b : ℕ} (h : b ∈ I) :
    ∃ l ∈ live, takes l = (s.ptr b, s.size b) := by
  have : (s.ptr b, s.size b) ∈ I.map (fun b => (s.ptr b, s.size b)) := List.mem_map_of_mem (f := fun b => (s.ptr b, s.size b)) h
  rw [← hl] at this
  exact List.mem_map.1 this

/-- A gap lies in a free block. -/
theorem gap_free {s : GPool} {M F I W : List ℕ} {areas live : List (ℕ × ℕ)} {e : ℕ} (h : GRep s M F I W areas none (e, e)) (hc : Coal s.isFree M)
    (hl : live.map takes = I.map (fun b => (s.ptr b, s.size b))) {x : ℕ × ℕ} (hx : IsGap areas live x) : ∃ b ∈ F, Inside x (s.ptr b, s.size b) := by
  obtain ⟨x0, n, r, rfl, h2⟩ := h.tile
  obtain ⟨h3, ⟨y, hy, h4⟩, h5⟩ := hx
  obtain ⟨b, hb, h6, h7⟩ := tile_gap s.ptr s.size s.isFree M x0 (x0 + n) r e x.1 x.2 h2 hc h3 (by
    rcases List.mem_cons.1 hy with rfl | hy
    · exact Or.inl h4
    · exact Or.inr ⟨y, hy, h4⟩) fun b hb hf hb0 => by
      have hbI : b ∈ I := (h.flagI b).2 ⟨hb, hf, hb0, by simp⟩
      obtain ⟨l, hl1, hl2⟩ := used_live hl hbI
      rw [← hl2]
      exact h5 l hl1
  exact ⟨b, (h.flagF b).2 ⟨hb, h6⟩, h7⟩

/-- A free block is a gap. -/
theorem free_gap {s : GPool} {M F I W : List ℕ} {areas live : List (ℕ × ℕ)} {e : ℕ} (h : GRep s M F I W areas none (e, e)) (ha : areas.Pairwise Apart)
    (hl : live.map takes = I.map (fun b => (s.ptr b, s.size b))) {b : ℕ} (hb : b ∈ F) : IsGap areas live (s.ptr b, s.size b) := by
  obtain ⟨hbM, hbf⟩ := (h.flagF b).1 hb
  have hb0 := h.pos b hbM hbf
  refine ⟨Nat.pos_of_ne_zero hb0, rep_inside h hbM hb0, fun l hl1 => ?_⟩
  obtain ⟨c, hc, h1⟩ := live_used hl hl1
  rw [← h1]
  have h2 := (h.flagI c).1 hc
  refine rep_apart h ha hbM h2.1 ?_ hb0 h2.2.2.1
  rintro rfl
  exact h.notF hc hb

/-- A block of the free block `q` is used. -/
theorem gpTake_at {sys : ℕ → ℕ} {mem : ℕ} {s : GPool} {M F I W : List ℕ} {areas live : List (ℕ × ℕ)} {e q req : ℕ}
    (h : GRep s M F I W areas none (e, e)) (hc : Coal s.isFree M) (hl : live.map takes = I.map (fun b => (s.ptr b, s.size b)))
    (hal : (mem / 5 % 256 = 0 ∧ ∀ k, sys k % 256 = 0) → ∀ b ∈ M, s.size b % 256 = 0 ∧ (s.size b ≠ 0 → s.ptr b % 256 = 0))
    (hu : UsableParts areas s.slabs) (ht : s.total = (s.slabs.map Prod.snd).sum + (areas.tail.map Prod.snd).sum) (hst : s.started = true)
    (h0 : 0 < req) (hq : q ∈ F) (hqs : gpRound req ≤ s.size q) :
    ∃ s' a, gpTake s q (gpRound req) = some (s', a) ∧ GAt sys mem s' ((a, req) :: live) areas ∧ a + gpRound req = s.ptr q + s.size q ∧ s'.slabs = s.slabs := by
  have hr0 := gpRound_pos h0
  have hrm := (le_gpRound req).2.2
  obtain ⟨hqM, hqf⟩ := (h.flagF q).1 hq
  by_cases e1 : gpRound req = s.size q
  · obtain ⟨s', h1, h2, h3, h4, h5, h6, h7, h8⟩ := gpTake_exact h hq
    rw [e1]
    refine ⟨s', _, h1, ⟨_, _, _, _, _, h2, hc.less ?_, ?_, ?_, by rw [h6]; exact hu, by rw [h6, h7]; exact ht, by rw [h8]; exact hst⟩, rfl, h6⟩
    · intro a ha
      rw [h5] at ha
      by_cases e2 : a = q
      · rw [e2]; exact hqf
      · rwa [update_of_ne e2] at ha
    · rw [List.map_cons, List.map_cons, h3, h4, ← hl]
      simp only [takes, e1]
    · intro hh
      rw [h3, h4]
      exact hal hh
  · obtain ⟨M1, M2, rfl⟩ := List.append_of_mem hqM
    obtain ⟨s', b, W', h1, h2, hb, h3, h4, h5, h6, h7, h8⟩ := gpTake_split h hq hr0 (by omega)
    have hbq : b ≠ q := fun e => hb (by simp [e])
    refine ⟨s', _, h1, ⟨_, _, _, _, _, h2, ?_, ?_, ?_, by rw [h6]; exact hu, by rw [h6, h7]; exact ht, by rw [h8]; exact hst⟩, by omega, h6⟩
    · have hbM1 : ∀ a ∈ M1 ++ q :: M2, s.isFree a = s'.isFree a := fun a ha => by
        rw [h5, update_of_ne]
        rintro rfl
        exact hb ha
      obtain ⟨c1, c2, c3, c4⟩ := coal_mid.1 (hc.congr hbM1)
      have hbf : s'.isFree b = false := by rw [h5, update_self]
      refine coal_mid.2 ⟨c1, ?_, c3, by simp [hbf]⟩
      have := (coal_mid (fr := s'.isFree) (l1 := []) (l2 := M2) (c := b)).2 ⟨List.IsChain.nil, c2, by simp, by simp [hbf]⟩
      exact this
    · rw [List.map_cons, List.map_cons, h3, h4, hl]
      congr 1
      · simp [takes, update_of_ne hbq]
      · refine List.map_congr_left fun a ha => ?_
        have n1 : a ≠ b := fun e => hb (e ▸ ((h.flagI a).1 ha).1)
        have n2 : a ≠ q := fun e => h.notF (e ▸ ha) hq
        simp [update_of_ne n1, update_of_ne n2]
    · intro hh a ha
      have hal' := hal hh
      have hq' := hal' q (by simp)
      have hq2 := hq'.2 (by omega)
      rw [h3, h4]
      by_cases e2 : a = b
      · subst e2
        rw [update_self, update_of_ne hbq, update_self]
        omega
      · by_cases e3 : a = q
        · subst e3
          rw [update_self, update_of_ne e2]
          omega
        · rw [update_of_ne e2, update_of_ne e3, update_of_ne e2]
          refine hal' a ?_
          simp only [List.mem_append, List.mem_cons] at ha ⊢
          tauto

/-- The pool takes the memory from its smallest free block that is large enough. -/
theorem gpAllocRec_found {sys : ℕ → ℕ} {mem : ℕ} {s : GPool} {M F I W : List ℕ} {areas live : List (ℕ × ℕ)} {e req : ℕ} (depth : ℕ)
    (h : GRep s M F I W areas none (e, e)) (hc : Coal s.isFree M) (hl : live.map takes = I.map (fun b => (s.ptr b, s.size b)))
    (hal : (mem / 5 % 256 = 0 ∧ ∀ k, sys k % 256 = 0) → ∀ b ∈ M, s.size b % 256 = 0 ∧ (s.size b ≠ 0 → s.ptr b % 256 = 0))
    (hu : UsableParts areas s.slabs) (ht : s.total = (s.slabs.map Prod.snd).sum + (areas.tail.map Prod.snd).sum) (hst : s.started = true)
    (h0 : 0 < req) (hex : ∃ b ∈ F, gpRound req ≤ s.size b) :
    ∃ s' a, gpAllocRec sys mem (depth + 1) s req = some (s', some a) ∧ GAt sys mem s' ((a, req) :: live) areas ∧ s'.slabs = s.slabs ∧
      ∃ q ∈ F, a + gpRound req = s.ptr q + s.size q ∧ gpRound req ≤ s.size q ∧ ∀ b ∈ F, gpRound req ≤ s.size b → s.size q ≤ s.size b := by
  obtain ⟨la, hF⟩ := h.fre
  obtain ⟨f, b, h1, h2, h3⟩ := gpSearch_spec s (gpRound req) F none s.freeHead la (s.count + 1) false s.freeHead hF (by have := h.lenF; omega) (by simp)
  have hf : f = true := by
    cases f with
    | true => rfl
    | false =>
      obtain ⟨x, hx, hx2⟩ := hex
      have := (h2 rfl).2 x hx
      omega
  obtain ⟨q, rfl, h5, h6, h7, _⟩ := h3 hf
  have hq : q ∈ F := by
    rcases h6 with h6 | h6
    · exact h6
    · simp at h6
  obtain ⟨s', a, h8, h9, h10, h11⟩ := gpTake_at h hc hl hal hu ht hst h0 hq h5
  refine ⟨s', a, ?_, h9, h11, q, hq, h10, h5, h7⟩
  unfold gpAllocRec
  simp only [h1, hf, Option.bind_some, if_true, h8, Option.map_some]

/-- No free block is large enough: the pool asks the system for more memory, or the program ends. -/
theorem gpAllocRec_more {sys : ℕ → ℕ} {mem : ℕ} {s : GPool} {M F I W : List ℕ} {areas live : List (ℕ × ℕ)} {e req : ℕ}
    (h : GRep s M F I W areas none (e, e)) (hc : Coal s.isFree M) (hl : live.map takes = I.map (fun b => (s.ptr b, s.size b)))
    (hal : (mem / 5 % 256 = 0 ∧ ∀ k, sys k % 256 = 0) → ∀ b ∈ M, s.size b % 256 = 0 ∧ (s.size b ≠ 0 → s.ptr b % 256 = 0))
    (hu : UsableParts areas s.slabs) (ht : s.total = (s.slabs.map Prod.snd).sum + (areas.tail.map Prod.snd).sum) (hst : s.started = true)
    (h0 : 0 < req) (hno : ∀ b ∈ F, s.size b < gpRound req) :
    (¬ (10 * s.total < 7 * mem ∧ 10 * (max (mem / 5) (gpRound req) + s.total) < 9 * mem) ∧ gpAllocRec sys mem 2 s req = some (s, none)) ∨
    ((10 * s.total < 7 * mem ∧ 10 * (max (mem / 5) (gpRound req) + s.total) < 9 * mem) ∧
      ∃ s' a, gpAllocRec sys mem 2 s req = some (s', some a) ∧
        GAt sys mem s' ((a, req) :: live) (areas ++ [(sys s.slabs.length, max (mem / 5) (gpRound req))]) ∧
        s'.slabs = s.slabs ++ [(sys s.slabs.length, gpRound (max (mem / 5) (gpRound req)))]) := by
  have hr0 := gpRound_pos h0
  obtain ⟨la, hF⟩ := h.fre
  obtain ⟨f, b, h1, h2, h3⟩ := gpSearch_spec s (gpRound req) F none s.freeHead la (s.count + 1) false s.freeHead hF (by have := h.lenF; omega) (by simp)
  have hf : f = false := by
    cases f with
    | false => rfl
    | true =>
      obtain ⟨q, _, h5, h6, _⟩ := h3 rfl
      have hq : q ∈ F := by
        rcases h6 with h6 | h6
        · exact h6
        · simp at h6
      have := hno q hq
      omega
  have hm : (if mem / 5 > gpRound req then mem / 5 else gpRound req) = max (mem / 5) (gpRound req) := by
    split <;> omega
  have hstep : gpAllocRec sys mem 2 s req = if 10 * s.total < 7 * mem ∧ 10 * (max (mem / 5) (gpRound req) + s.total) < 9 * mem then
      (gpExtend sys s (max (mem / 5) (gpRound req))).bind fun s => gpAllocRec sys mem 1 s (gpRound req) else some (s, none) := by
    rw [gpAllocRec]
    simp only [h1, hf, Option.bind_some, Bool.false_eq_true, if_false, hm]
  rw [hstep]
  by_cases hcond : 10 * s.total < 7 * mem ∧ 10 * (max (mem / 5) (gpRound req) + s.total) < 9 * mem
  · right
    rw [if_pos hcond]
    refine ⟨hcond, ?_⟩
    obtain ⟨t, p, b, W', e', g1, g2, g3, g4, g5, g6, g7, g8, g9, g10⟩ := gpExtend_rep (sys := sys) h (m := max (mem / 5) (gpRound req)) (by omega)
    rw [g1, Option.bind_some]
    have hI : ∀ c ∈ I, c ∈ M := fun c hc => ((h.flagI c).1 hc).1
    have hcoal : Coal t.isFree (M ++ [p] ++ [b]) := by
      have c1 : Coal t.isFree M := hc.congr fun a ha => (g7 a ha).2.2.symm
      refine coal_mid.2 ⟨coal_mid.2 ⟨c1, List.IsChain.nil, by simp [g6], by simp⟩, List.IsChain.nil, ?_, by simp⟩
      simp [g6]
    have hl' : live.map takes = I.map (fun b => (t.ptr b, t.size b)) := by
      rw [hl]
      refine List.map_congr_left fun a ha => ?_
      rw [(g7 a (hI a ha)).1, (g7 a (hI a ha)).2.1]
    have hal' : (mem / 5 % 256 = 0 ∧ ∀ k, sys k % 256 = 0) → ∀ c ∈ M ++ [p] ++ [b], t.size c % 256 = 0 ∧ (t.size c ≠ 0 → t.ptr c % 256 = 0) := by
      intro hh c hcm
      simp only [List.append_assoc, List.mem_append, List.mem_cons, List.not_mem_nil, or_false] at hcm
      rcases hcm with hcm | rfl | rfl
      · rw [(g7 c hcm).1, (g7 c hcm).2.1]
        exact hal hh c hcm
      · have hsz : t.size c = 0 := by
          by_contra hne
          have hcI := (g2.flagI c).2 ⟨by simp, g6, hne, by simp⟩
          have := hI c hcI
          have hnd := g2.ndM
          rw [List.append_assoc] at hnd
          exact (List.nodup_append.1 hnd).2.2 c this c (by simp) rfl
        rw [hsz]
        simp
      · rw [g3, g4]
        refine ⟨?_, fun _ => hh.2 _⟩
        rcases max_choice (mem / 5) (gpRound req) with hmx | hmx
        · rw [hmx]; exact hh.1
        · rw [hmx]; exact (le_gpRound req).2.2
    have hu' : UsableParts (areas ++ [(sys s.slabs.length, max (mem / 5) (gpRound req))]) t.slabs := by
      rw [g8]
      refine List.rel_append hu (List.Forall₂.cons ⟨rfl, ?_, ?_⟩ List.Forall₂.nil)
      · exact (le_gpRound _).1
      · exact (le_gpRound _).2.1
    have hne : areas ≠ [] := by
      obtain ⟨x, n, r, e1, _⟩ := h.tile
      simp [e1]
    have ht' : t.total = (t.slabs.map Prod.snd).sum + ((areas ++ [(sys s.slabs.length, max (mem / 5) (gpRound req))]).tail.map Prod.snd).sum := by
      rw [g8, g9, ht, List.tail_append_of_ne_nil hne]
      simp only [List.map_append, List.map_cons, List.map_nil, List.sum_append, List.sum_cons, List.sum_nil]
      omega
    obtain ⟨s', a, k1, k2, k3, _⟩ := gpAllocRec_found (sys := sys) (mem := mem) (req := gpRound req) 0 g2 hcoal hl' hal' hu' ht' (by rw [g10]; exact hst) hr0
      ⟨b, by simp, by rw [g4, gpRound_idem]; exact le_max_right _ _⟩
    refine ⟨s', a, k1, ?_, by rw [k3, g8]⟩
    obtain ⟨M', F', I', W'', e'', q1, q2, q3, q4⟩ := k2
    refine ⟨M', F', I', W'', e'', q1, q2, ?_, q4⟩
    rw [← q3]
    simp [takes, gpRound_idem]
  · left
    rw [if_neg hcond]
    exact ⟨hcond, rfl⟩

/-- The first slab. -/
theorem gpInit_at {sys : ℕ → ℕ} {mem : ℕ} {s : GPool} (h : GStart s) :
    ∃ s', gpInit sys mem { s with started := true } = some s' ∧ GAt sys mem s' [] [(sys 0, mem / 5 - mem / 5 % 256 + 256)] ∧
      s'.slabs = [(sys 0, mem / 5 - mem / 5 % 256 + 256)] := by
  obtain ⟨_, hun, hco, _, _, _, hto, _, hsl⟩ := h
  have hr : gpRound (mem / 5 - mem / 5 % 256 + 256) = mem / 5 - mem / 5 % 256 + 256 := by
    unfold gpRound
    rw [if_neg (by omega)]
  unfold gpInit gpGet
  simp only [hun, if_true, gpMore, hco, Option.map_some, gpSlab, hsl, hto, hr, List.length_nil, List.nil_append, Nat.zero_add]
  refine ⟨_, rfl, ⟨[0], [0], [], List.range' 1 999, sys 0 + (mem / 5 - mem / 5 % 256 + 256), ?_, List.isChain_singleton _, rfl, ?_, ?_, ?_, rfl⟩, rfl⟩
  · exact {
      mem := ⟨some 0, rfl, by simp, by simp, rfl⟩
      fre := ⟨some 0, rfl, by simp, by simp, rfl⟩
      use := ⟨none, rfl, rfl⟩
      unu := by
        simp only [Nat.le_refl, Nat.ofNat_pos, and_self, if_true, Nat.zero_le, true_and]
        refine sList_range (e := 999) (by simp) 998 1 rfl fun i h1 h2 => ?_
        rw [update_of_ne (by omega), update_of_ne (by omega), if_pos h2]
      nd := by
        refine List.nodup_append.2 ⟨by simp, List.nodup_range', fun a ha b hb => ?_⟩
        have := (List.mem_range'_1.1 hb).1
        simp only [List.mem_cons, List.not_mem_nil, or_false] at ha
        omega
      lt := fun b hb => by
        show b < 1000
        rcases List.mem_append.1 hb with hb | hb
        · simp only [List.mem_cons, List.not_mem_nil, or_false] at hb
          omega
        · have := (List.mem_range'_1.1 hb).2
          omega
      ndF := by simp
      ndI := by simp
      flagF := fun b => by
        simp only [List.mem_cons, List.not_mem_nil, or_false]
        constructor
        · rintro rfl
          simp
        · exact fun hb => hb.1
      flagI := fun b => by
        simp only [List.mem_cons, List.not_mem_nil, or_false, false_iff, not_and]
        rintro rfl
        simp
      pos := fun b hb _ => by
        simp only [List.mem_cons, List.not_mem_nil, or_false] at hb
        subst hb
        simp
      ne := by simp
      tile := by
        refine ⟨_, _, [], rfl, ?_⟩
        rw [tileRun_cons, tileStep_block (by simp) (by simp)]
        simp [tileRun_nil]
      len := rfl
      sum := rfl }
  · intro hh b hb
    simp only [List.mem_cons, List.not_mem_nil, or_false] at hb
    subst hb
    simp only [update_self]
    have := hh.2 0
    omega
  · refine List.Forall₂.cons ⟨rfl, le_rfl, by simp⟩ List.Forall₂.nil
  · simp

/-- The block `f` is joined to its free neighbours. -/
theorem gpJoin_at {sys : ℕ → ℕ} {mem : ℕ} {s : GPool} {M F I W : List ℕ} {areas live : List (ℕ × ℕ)} {e f : ℕ}
    (hr1 : GRep s M F I W areas (some f) (e, e)) (hc : Coal s.isFree M) (hlive : live.map takes = I.map (fun b => (s.ptr b, s.size b)))
    (hal : (mem / 5 % 256 = 0 ∧ ∀ k, sys k % 256 = 0) → ∀ b ∈ M, s.size b % 256 = 0 ∧ (s.size b ≠ 0 → s.ptr b % 256 = 0))
    (hu : UsableParts areas s.slabs) (ht : s.total = (s.slabs.map Prod.snd).sum + (areas.tail.map Prod.snd).sum) (hst : s.started = true)
    (hfM : f ∈ M) (hff : s.isFree f = false) (hf0 : s.size f ≠ 0) :
    ∃ s', gpJoin s f = some s' ∧ GAt sys mem s' live areas ∧ s'.slabs = s.slabs := by
  obtain ⟨M1, M2, rfl⟩ := List.append_of_mem hfM
  obtain ⟨hup, hdown⟩ := hr1.mem.at
  obtain ⟨c1, c2, c3, c4⟩ := coal_mid.1 hc
  have hnd := List.nodup_append.1 hr1.ndM
  have hfM1 : f ∉ M1 := fun e => hnd.2.2 f e f (by simp) rfl
  have hfM2 : f ∉ M2 := (List.nodup_cons.1 hnd.2.1).1
  have hfreeI : ∀ b ∈ M1 ++ f :: M2, s.isFree b = true → b ∉ I := fun b hb h1 h2 => hr1.notF h2 ((hr1.flagF b).2 ⟨hb, h1⟩)
  unfold gpJoin
  simp only [hup, hdown]
  cases hd : gpIsFree s M1.getLast? with
  | true =>
    -- joined to the block below
    obtain ⟨d, hd1, hd2⟩ : ∃ d, M1.getLast? = some d ∧ s.isFree d = true := by
      cases e1 : M1.getLast? with
      | none => rw [e1] at hd; simp [gpIsFree] at hd
      | some d => rw [e1] at hd; exact ⟨d, rfl, hd⟩
    obtain ⟨M0, rfl⟩ := List.getLast?_eq_some_iff.1 hd1
    have eM : M0 ++ [d] ++ f :: M2 = M0 ++ d :: f :: M2 := by simp
    have hdI : d ∉ I := hfreeI d (by simp) hd2
    have hd0 := hr1.pos d (by simp) hd2
    have hus0 : ∀ u, M2.head? = some u → s.isFree u = true → s.size u ≠ 0 := fun u h1 h2 =>
      hr1.pos u (by simp [List.mem_of_mem_head? (show u ∈ M2.head? from h1)]) h2
    rw [eM] at hr1 hal
    obtain ⟨t, k1, k2, k3, k4, k5, k6, k7, k8⟩ := gpMergeDown_rep hr1 hd2 hf0 (Or.inr ⟨hff, rfl⟩)
    simp only [if_true, k1, Option.bind_some]
    obtain ⟨c5, _, c6, _⟩ := coal_mid.1 c1
    have hlt : live.map takes = I.map (fun b => (t.ptr b, t.size b)) := by
      rw [hlive]
      refine List.map_congr_left fun b hb => ?_
      rw [k3, k4, update_of_ne (fun e1 : b = d => hdI (e1 ▸ hb))]
    have halt : (mem / 5 % 256 = 0 ∧ ∀ k, sys k % 256 = 0) → ∀ b ∈ M0 ++ d :: M2, t.size b % 256 = 0 ∧ (t.size b ≠ 0 → t.ptr b % 256 = 0) := by
      intro hh b hb
      rw [k3, k4]
      have h4 := hal hh
      have h5 := h4 d (by simp)
      have h6 := h4 f (by simp)
      have h7 := h5.2 hd0
      by_cases e1 : b = d
      · subst e1
        rw [update_self]
        omega
      · rw [update_of_ne e1]
        refine h4 b ?_
        simp only [List.mem_append, List.mem_cons] at hb
        rcases hb with hb | hb | hb <;> simp [hb]
    -- the block above is not free
    have last : (∀ y ∈ M2.head?, ¬ (s.isFree y = true)) → GAt sys mem t live areas := fun hy => by
      refine ⟨_, _, _, _, _, k2, ?_, hlt, halt, by rw [k6]; exact hu, by rw [k6, k7]; exact ht, by rw [k8]; exact hst⟩
      rw [k5]
      exact coal_mid.2 ⟨c5, c2, c6, fun y hy1 h4 => hy y hy1 h4.2⟩
    cases hh2 : M2.head? with
    | none => exact ⟨t, rfl, last (by simp [hh2]), k6⟩
    | some u =>
      cases hu2 : t.isFree u with
      | false =>
        simp only [gpIsFree, hu2, Bool.false_eq_true, if_false]
        refine ⟨t, rfl, last ?_, k6⟩
        intro y hy
        rw [hh2] at hy
        obtain rfl := Option.some.inj hy
        rw [k5] at hu2
        simp [hu2]
      | true =>
        simp only [gpIsFree, hu2, if_true, Option.bind_some]
        have hus : s.isFree u = true := by rw [k5] at hu2; exact hu2
        have hu0 := hus0 u hh2 hus
        obtain ⟨M3, rfl⟩ := List.head?_eq_some_iff.1 hh2
        have hud : u ≠ d := fun e1 => hnd.2.2 d (by simp) u (by simp) e1.symm
        have hut : t.size u ≠ 0 := by
          rw [k4, update_of_ne hud]
          exact hu0
        obtain ⟨t', j1, j2, j3, j4, j5, j6, j7, j8⟩ := gpMergeDown_rep k2 (by rw [k5]; exact hd2) hut (Or.inl ⟨hu2, rfl⟩)
        rw [j1]
        refine ⟨t', rfl, ⟨_, _, _, _, _, j2, ?_, ?_, ?_, by rw [j6, k6]; exact hu, by rw [j6, j7, k6, k7]; exact ht, by rw [j8, k8]; exact hst⟩, by rw [j6, k6]⟩
        · rw [j5, k5]
          have c7 := coal_mid (fr := s.isFree) (l1 := []) (c := u) (l2 := M3) |>.1 c2
          refine coal_mid.2 ⟨c5, c7.2.1, c6, fun y hy h4 => c7.2.2.2 y hy ⟨hus, h4.2⟩⟩
        · rw [hlt]
          refine List.map_congr_left fun b hb => ?_
          rw [j3, j4, update_of_ne (fun e1 : b = d => hdI (e1 ▸ hb))]
        · intro hh b hb
          rw [j3, j4]
          have h4 := halt hh
          have h5 := h4 d (by simp)
          have h6 := h4 u (by simp)
          have h8 := h5.2 (k2.pos d (by simp) (by rw [k5]; exact hd2))
          by_cases e1 : b = d
          · subst e1
            rw [update_self]
            omega
          · rw [update_of_ne e1]
            refine h4 b ?_
            simp only [List.mem_append, List.mem_cons] at hb
            rcases hb with hb | hb | hb <;> simp [hb]
  | false =>
    simp only [Bool.false_eq_true, if_false]
    have hlow : ∀ x ∈ M1.getLast?, ¬ s.isFree x = true := fun x hx => by
      rw [show M1.getLast? = some x from hx] at hd
      simp only [gpIsFree] at hd
      simp [hd]
    cases hv : gpIsFree s M2.head? with
    | true =>
      -- joined to the block above
      obtain ⟨u, hu1, hu2⟩ : ∃ u, M2.head? = some u ∧ s.isFree u = true := by
        cases e1 : M2.head? with
        | none => rw [e1] at hv; simp [gpIsFree] at hv
        | some d => rw [e1] at hv; exact ⟨d, rfl, hv⟩
      obtain ⟨M3, rfl⟩ := List.head?_eq_some_iff.1 hu1
      have huI : u ∉ I := hfreeI u (by simp) hu2
      obtain ⟨t, k1, k2, k3, k4, k5, k6, k7, k8⟩ := gpMergeUp_rep hr1 hu2 hf0 hff
      simp only [if_true, k1]
      have c7 := coal_mid (fr := s.isFree) (l1 := []) (c := u) (l2 := M3) |>.1 c2
      refine ⟨t, rfl, ⟨_, _, _, _, _, k2, ?_, ?_, ?_, by rw [k6]; exact hu, by rw [k6, k7]; exact ht, by rw [k8]; exact hst⟩, k6⟩
      · rw [k5]
        exact coal_mid.2 ⟨c1, c7.2.1, fun x hx h4 => hlow x hx h4.1, c7.2.2.2⟩
      · rw [hlive]
        refine List.map_congr_left fun b hb => ?_
        have : b ≠ u := fun e1 => huI (e1 ▸ hb)
        rw [k3, k4, update_of_ne this, update_of_ne this]
      · intro hh b hb
        rw [k3, k4]
        have h4 := hal hh
        have h5 := h4 u (by simp)
        have h6 := h4 f (by simp)
        have h7 := h6.2 hf0
        by_cases e1 : b = u
        · subst e1
          rw [update_self, update_self]
          omega
        · rw [update_of_ne e1, update_of_ne e1]
          refine h4 b ?_
          simp only [List.mem_append, List.mem_cons] at hb
          rcases hb with hb | hb | hb <;> simp [hb]
    | false =>
      simp only [Bool.false_eq_true, if_false]
      have hupp : ∀ x ∈ M2.head?, ¬ s.isFree x = true := fun x hx => by
        rw [show M2.head? = some x from hx] at hv
        simp only [gpIsFree] at hv
        simp [hv]
      have k2 := gpMarkFree_rep hr1 (by simp) hff hf0
      refine ⟨_, rfl, ⟨_, _, _, _, _, k2, ?_, hlive, hal, hu, ht, hst⟩, rfl⟩
      have hfre : ∀ b, b ≠ f → (gpMarkFree s f).isFree b = s.isFree b := fun b hb => by
        simp [gpMarkFree, hb]
      refine coal_mid.2 ⟨c1.congr fun b hb => (hfre b (fun e1 => hfM1 (e1 ▸ hb))).symm, c2.congr fun b hb => (hfre b (fun e1 => hfM2 (e1 ▸ hb))).symm, ?_, ?_⟩
      · intro x hx h4
        rw [hfre x (fun e1 => hfM1 (e1 ▸ List.mem_of_getLast? hx))] at h4
        exact hlow x hx h4.1
      · intro y hy h4
        rw [hfre y (fun e1 => hfM2 (e1 ▸ List.mem_of_mem_head? hy))] at h4
        exact hupp y hy h4.2

/-- A block is given back. -/
theorem gpFree_at {sys : ℕ → ℕ} {mem : ℕ} {s : GPool} {live areas : List (ℕ × ℕ)} (h : GAt sys mem s live areas) (hs : s.slabs.Pairwise Apart) (a : ℕ) :
    (a ∉ live.map Prod.fst ∧ gpFree s a = some none) ∨
    (a ∈ live.map Prod.fst ∧ ∃ s', gpFree s a = some (some s') ∧ GAt sys mem s' (live.filter fun l => l.1 ≠ a) areas ∧ s'.slabs = s.slabs) := by
  obtain ⟨M, F, I, W, e, hr, hc, hl, hal, hu, ht, hst⟩ := h
  have hap := usable_apart hu hs
  obtain ⟨la, hI⟩ := hr.use
  obtain ⟨r, h1, h2, h3⟩ := gpFind_spec s a I none s.useHead la (s.count + 1) hI (by have := hr.lenI; omega)
  cases r with
  | none =>
    left
    constructor
    · intro hm
      obtain ⟨l, hl1, rfl⟩ := List.mem_map.1 hm
      obtain ⟨b, hb, h4⟩ := live_used hl hl1
      exact h2 rfl b hb (congrArg Prod.fst h4)
    · unfold gpFree
      rw [h1]
      rfl
  | some f =>
    right
    obtain ⟨hfI, hfa⟩ := h3 f rfl
    obtain ⟨hfM, hff, hf0, _⟩ := (hr.flagI f).1 hfI
    have hm : a ∈ live.map Prod.fst := by
      obtain ⟨l, hl1, h4⟩ := used_live hl hfI
      refine List.mem_map.2 ⟨l, hl1, ?_⟩
      rw [← hfa]
      exact congrArg Prod.fst h4
    refine ⟨hm, ?_⟩
    -- the list of used blocks without `f` is that of the program
    have hlive : (live.filter fun l => l.1 ≠ a).map takes = (I.erase f).map (fun b => (s.ptr b, s.size b)) := by
      have e1 : (live.filter fun l => l.1 ≠ a).map takes = (live.map takes).filter fun l => l.1 ≠ a := by
        rw [List.filter_map]
        rfl
      rw [e1, hl, List.filter_map, hr.ndI.erase_eq_filter]
      congr 1
      refine List.filter_congr fun b hb => ?_
      show decide (s.ptr b ≠ a) = (b != f)
      by_cases e2 : b = f
      · simp [e2, hfa]
      · have hb' := (hr.flagI b).1 hb
        have := rep_apart hr hap hb'.1 hfM e2 hb'.2.2.1 hf0
        unfold Apart at this
        simp only [] at this
        have hne : s.ptr b ≠ a := by omega
        simp [hne, e2]
    obtain ⟨s', k1, k2, k3⟩ := gpJoin_at (sys := sys) (mem := mem) (live := live.filter fun l => l.1 ≠ a) (gpUnuse_rep hr hfI) hc hlive hal hu ht hst hfM hff hf0
    refine ⟨s', ?_, k2, k3⟩
    unfold gpFree
    rw [h1]
    simp only [Option.bind_some]
    rw [k1]
    rfl

end Hila
