import Verif.Lemmas.MemPool
import Mathlib.Data.List.Pairwise

/-!
# C15: the device memory pool

`PoolReach gpu s held` says that the pool can be in state `s` while the users hold the blocks
`held` (address and requested size), after some history of allocations, frees and purges. The
system allocator may return any region that does not overlap memory the pool has not given back.
-/

namespace Hila

/-- Two regions (address, length) have no common byte. -/
def NoOverlap (a b : ℕ × ℕ) : Prop := a.1 + a.2 ≤ b.1 ∨ b.1 + b.2 ≤ a.1

/-- The system allocator's promise: a region of `len` bytes at `p` does not overlap blocks that are
still owned by the pool. -/
def SystemGives (s : Pool) (p len : ℕ) : Prop :=
  ∀ b ∈ s.blocks, NoOverlap (p, len) (b.ptr, b.size)

/-- Histories. -/
inductive PoolReach (gpu : Bool) : Pool → List (ℕ × ℕ) → Prop where
  | new : PoolReach gpu Pool.new []
  | alloc (s s' : Pool) (held : List (ℕ × ℕ)) (req np p : ℕ) : PoolReach gpu s held →
      SystemGives s np (poolSize req) → s.alloc req np = some (s', p) →
      PoolReach gpu s' ((p, req) :: held)
  | free (s s' : Pool) (held : List (ℕ × ℕ)) (p : ℕ) : PoolReach gpu s held →
      s.free p = .ok s' → PoolReach gpu s' (held.filter fun x => decide (x.1 ≠ p))
  | purge (s s' : Pool) (held : List (ℕ × ℕ)) : PoolReach gpu s held →
      s.purge gpu = .ok s' → PoolReach gpu s' held

theorem purge_cpu (s s' : Pool) (h : s.purge false = .ok s') : s.purge true = .ok s' := by
  unfold Pool.purge at h ⊢
  rw [if_neg (by simp)]
  split at h
  · cases h
  · exact h

theorem reach_inv (gpu : Bool) (s : Pool) (held : List (ℕ × ℕ)) (h : PoolReach gpu s held) :
    PInv s held := by
  induction h with
  | new => exact ⟨by simp [Pool.new], by simp [Pool.new], by simp [Pool.new], by simp [Pool.new],
      by simp [Pool.new], by simp, by simp [Pool.new], by simp⟩
  | alloc s s' held req np p _ hg ha ih =>
    obtain ⟨s1, p1, sz, h1, h2, _⟩ := alloc_inv s held ih req np hg
    rw [ha] at h1
    simp only [Option.some.injEq, Prod.mk.injEq] at h1
    obtain ⟨rfl, rfl⟩ := h1
    exact h2
  | free s s' held p _ hf ih =>
    obtain ⟨f1, f2⟩ := free_inv s held ih p
    by_cases hx : ∃ m, (p, m) ∈ held
    · obtain ⟨s1, h1, h2⟩ := f1 hx
      rw [hf] at h1
      cases h1
      exact h2
    · obtain ⟨e, he⟩ := f2 (fun x hx' hxp => hx ⟨x.2, by rw [← hxp]; exact hx'⟩)
      rw [hf] at he; cases he
  | purge s s' held _ hp ih =>
    have hp' : s.purge true = .ok s' := by
      cases gpu
      · exact purge_cpu s s' hp
      · exact hp
    obtain ⟨s1, h1, h2, _⟩ := purge_inv s held ih
    rw [hp'] at h1
    cases h1
    exact h2

/-- **C15** (allocation). In every reachable state an allocation succeeds, without undefined
behaviour, and returns the start of a block of `sz` bytes, at least as large as requested and less
than twice the (rounded up) request, that does not overlap any block held by a user. -/
theorem C15_alloc (gpu : Bool) (s : Pool) (held : List (ℕ × ℕ)) (h : PoolReach gpu s held)
    (req np : ℕ) (hsys : SystemGives s np (poolSize req)) :
    ∃ s' p sz, s.alloc req np = some (s', p) ∧ req ≤ sz ∧ sz < 2 * max req 128 ∧
      (∃ b ∈ s'.blocks, b.ptr = p ∧ b.size = sz ∧ b.inUse = true) ∧
      ∀ x ∈ held, NoOverlap (p, sz) x ∧ x.1 ≠ p := by
  obtain ⟨s', p, sz, h1, _, h3, h4, h5, h6, h7, h8⟩ :=
    alloc_inv s held (reach_inv gpu s held h) req np hsys
  have hps : poolSize req = max req 128 := by unfold poolSize; split <;> omega
  exact ⟨s', p, sz, h1, h4, by rw [← hps]; exact h6, ⟨_, h3, rfl, rfl, rfl⟩,
    fun x hx => ⟨h8 x hx, h7 x hx⟩⟩

/-- **C15** (held blocks). In every reachable state the blocks held by users do not overlap, each
one lies inside a block that the pool considers in use, and the pool considers no other block in
use. -/
theorem C15_held_blocks (gpu : Bool) (s : Pool) (held : List (ℕ × ℕ)) (h : PoolReach gpu s held) :
    held.Pairwise NoOverlap ∧
    (∀ x ∈ held, ∃ b ∈ s.blocks, b.inUse = true ∧ b.ptr = x.1 ∧ x.2 ≤ b.size) ∧
    (∀ b ∈ s.blocks, b.inUse = true → ∃ x ∈ held, x.1 = b.ptr) ∧
    s.blocks.Pairwise (fun a b => NoOverlap (a.ptr, a.size) (b.ptr, b.size)) ∧
    s.total = (s.blocks.map PBlock.size).sum := by
  have hi := reach_inv gpu s held h
  have hdis : s.blocks.Pairwise (fun a b => NoOverlap (a.ptr, a.size) (b.ptr, b.size)) :=
    List.pairwise_map.1 hi.disj
  refine ⟨?_, hi.heldIn, hi.used, hdis, hi.total⟩
  have hnd : held.Pairwise fun a b => a.1 ≠ b.1 := List.pairwise_map.1 hi.nodup
  refine hnd.imp_of_mem ?_
  intro x y hx hy hxy
  obtain ⟨b, hb, _, hbp, hbs⟩ := hi.heldIn x hx
  obtain ⟨c, hc, _, hcp, hcs⟩ := hi.heldIn y hy
  have hbc : b ≠ c := by rintro rfl; exact hxy (hbp.symm.trans hcp)
  have : Std.Symm (fun a b : PBlock => NoOverlap (a.ptr, a.size) (b.ptr, b.size)) :=
    ⟨fun a b h => Or.symm h⟩
  have := hdis.forall hb hc hbc
  simp only [NoOverlap] at this ⊢
  omega

/-- **C15** (free). Freeing a held block succeeds and gives up exactly that block; freeing anything
else (an address never handed out, or one already freed) is refused. -/
theorem C15_free (gpu : Bool) (s : Pool) (held : List (ℕ × ℕ)) (h : PoolReach gpu s held) (p : ℕ) :
    ((∃ m, (p, m) ∈ held) → ∃ s', s.free p = .ok s' ∧
      (∀ b ∈ s'.blocks, b.ptr = p → b.inUse = false) ∧
      PoolReach gpu s' (held.filter fun x => decide (x.1 ≠ p))) ∧
    ((∀ x ∈ held, x.1 ≠ p) → ∃ e, s.free p = .error e) := by
  obtain ⟨f1, f2⟩ := free_inv s held (reach_inv gpu s held h) p
  refine ⟨?_, f2⟩
  intro hx
  obtain ⟨s', h1, h2⟩ := f1 hx
  refine ⟨s', h1, ?_, PoolReach.free s s' held p h h1⟩
  intro b hb hbp
  cases hu : b.inUse
  · rfl
  · obtain ⟨x, hx, hxp⟩ := h2.used b hb hu
    have := (List.mem_filter.1 hx).2
    simp only [ne_eq, decide_not, Bool.not_eq_true', decide_eq_false_iff_not] at this
    exact absurd (hxp.trans hbp) this

/-- **C15** (purge, GPU builds). Purging succeeds, keeps every block in use and drops every other
one. -/
theorem C15_purge_gpu (s : Pool) (held : List (ℕ × ℕ)) (h : PoolReach true s held) :
    ∃ s', s.purge true = .ok s' ∧ (∀ b, b ∈ s'.blocks ↔ b ∈ s.blocks ∧ b.inUse = true) ∧
      PoolReach true s' held := by
  obtain ⟨s', h1, _, h3⟩ := purge_inv s held (reach_inv true s held h)
  refine ⟨s', h1, ?_, PoolReach.purge s s' held h h1⟩
  intro b; rw [h3, List.mem_filter]

/-- **C15, counterexample (CPU builds).** After `p = alloc(200); free(p)` a purge stops the program
with "already freed". -/
theorem C15_not_purge_cpu : ∃ s, PoolReach false s [] ∧ s.purge false = .error .alreadyFreed := by
  refine ⟨⟨[⟨1000, 200, false⟩], 0, 200⟩, ?_, by decide⟩
  have h1 : PoolReach false ⟨[⟨1000, 200, true⟩], 0, 200⟩ [(1000, 200)] :=
    PoolReach.alloc Pool.new _ [] 200 1000 1000 PoolReach.new (by intro b hb; cases hb) (by decide)
  exact PoolReach.free _ _ [(1000, 200)] 1000 h1 (by decide)

/-- A non-trivial history: reuse of a larger block, purge, new allocation. -/
example : ∃ s, PoolReach true s [(5000, 300), (1000, 150)] ∧ s.blocks.length = 2 := by
  have h1 : PoolReach true ⟨[⟨1000, 200, true⟩], 0, 200⟩ [(1000, 200)] :=
    PoolReach.alloc Pool.new _ [] 200 1000 1000 PoolReach.new (by intro b hb; cases hb) (by decide)
  have h2 : PoolReach true ⟨[⟨1000, 200, true⟩, ⟨2000, 128, true⟩], 1, 328⟩
      [(2000, 5), (1000, 200)] :=
    PoolReach.alloc _ _ _ 5 2000 2000 h1 (by
      intro b hb; simp only [List.mem_singleton] at hb; subst hb
      exact Or.inr (by decide)) (by decide)
  have h3 : PoolReach true ⟨[⟨1000, 200, false⟩, ⟨2000, 128, true⟩], 0, 328⟩ [(2000, 5)] :=
    PoolReach.free _ _ _ 1000 h2 (by decide)
  have h4 : PoolReach true ⟨[⟨1000, 200, true⟩, ⟨2000, 128, true⟩], 0, 328⟩
      [(1000, 150), (2000, 5)] :=
    PoolReach.alloc _ _ _ 150 9000 1000 h3 (by
      intro b hb
      have hb' : b = ⟨1000, 200, false⟩ ∨ b = ⟨2000, 128, true⟩ := by simpa using hb
      rcases hb' with rfl | rfl <;> exact Or.inr (by decide)) (by decide)
  have h5 : PoolReach true ⟨[⟨1000, 200, true⟩, ⟨2000, 128, false⟩], 0, 328⟩ [(1000, 150)] :=
    PoolReach.free _ _ _ 2000 h4 (by decide)
  have h6 : PoolReach true ⟨[⟨1000, 200, true⟩], 0, 200⟩ [(1000, 150)] :=
    PoolReach.purge _ _ _ h5 (by decide)
  exact ⟨⟨[⟨1000, 200, true⟩, ⟨5000, 300, true⟩], 1, 500⟩,
    PoolReach.alloc _ _ _ 300 5000 5000 h6 (by
      intro b hb; simp only [List.mem_singleton] at hb; subst hb
      exact Or.inr (by decide)) (by decide), rfl⟩

end Hila
