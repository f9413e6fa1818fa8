import Verif.Lemmas.GpuRace
import Mathlib.Algebra.BigOperators.Intervals
import Mathlib.Algebra.BigOperators.Group.Finset.Basic
import Mathlib.Tactic.Ring
import Mathlib.Tactic.Linarith

/-!
# Sums over threads, blocks and rounds
-/

namespace Hila
namespace Gpu

open BigOperators

variable {W : Type}

/-! ### Sums over blocks -/

theorem sum_blocks [AddCommMonoid W] (T : ℕ) (h : ℕ → W) : ∀ NB : ℕ,
    ∑ blk ∈ Finset.range NB, ∑ t ∈ Finset.range T, h (t + blk * T) =
      ∑ g ∈ Finset.range (NB * T), h g := by
  intro NB
  induction NB with
  | zero => simp
  | succ NB ih =>
    rw [Finset.sum_range_succ, ih, Nat.succ_mul, Finset.sum_range_add]
    congr 1
    apply Finset.sum_congr rfl
    intro t _
    rw [Nat.add_comm]

theorem list_sum_range [AddCommMonoid W] (h : ℕ → W) (n : ℕ) :
    ((List.range n).map h).sum = ∑ i ∈ Finset.range n, h i := by
  induction n with
  | zero => simp
  | succ n ih => rw [List.range_succ, Finset.sum_range_succ, ← ih]; simp

theorem sum_range_extend [AddCommMonoid W] (h : ℕ → W) {n m : ℕ} (hnm : n ≤ m)
    (hz : ∀ g, n ≤ g → g < m → h g = 0) :
    ∑ g ∈ Finset.range m, h g = ∑ g ∈ Finset.range n, h g := by
  obtain ⟨k, rfl⟩ := Nat.exists_eq_add_of_le hnm
  rw [Finset.sum_range_add, Finset.sum_eq_zero (s := Finset.range k), add_zero]
  intro x hx
  rw [Finset.mem_range] at hx
  exact hz _ (by omega) (by omega)

theorem sum_Ico_range [AddCommMonoid W] (F : ℕ → W) (b e : ℕ) :
    ∑ i ∈ Finset.Ico b e, F i = ∑ g ∈ Finset.range (e - b), F (g + b) := by
  rw [Finset.sum_Ico_eq_sum_range]
  apply Finset.sum_congr rfl
  intro t _
  rw [Nat.add_comm]

/-! ### Sites of the threads -/

theorem siteLoop_fuel {step : ℕ} (hs : 0 < step) : ∀ (fuel idx e : ℕ), e - idx ≤ fuel →
    siteLoop fuel idx e step = siteLoop (e - idx) idx e step := by
  intro fuel
  induction fuel using Nat.strongRecOn with
  | ind fuel ih =>
    intro idx e h
    cases fuel with
    | zero => have : e - idx = 0 := by omega
              rw [this]
    | succ fuel =>
      by_cases hi : idx < e
      · obtain ⟨k, hk⟩ : ∃ k, e - idx = k + 1 := ⟨e - idx - 1, by omega⟩
        rw [hk]
        simp only [siteLoop, if_pos hi]
        rw [ih fuel (by omega) _ _ (by omega)]
        by_cases hkf : k < fuel + 1
        · rw [ih k (by omega) (idx + step) e (by omega)]
        · omega
      · have : e - idx = 0 := by omega
        rw [this]
        simp [siteLoop, hi]

theorem siteLoop_unfold {step : ℕ} (hs : 0 < step) (idx e : ℕ) :
    siteLoop (e - idx) idx e step =
      if idx < e then idx :: siteLoop (e - (idx + step)) (idx + step) e step else [] := by
  by_cases hi : idx < e
  · rw [if_pos hi]
    obtain ⟨k, hk⟩ : ∃ k, e - idx = k + 1 := ⟨e - idx - 1, by omega⟩
    rw [hk]
    simp only [siteLoop, if_pos hi]
    rw [siteLoop_fuel hs k _ _ (by omega)]
  · rw [if_neg hi]
    have : e - idx = 0 := by omega
    rw [this]; rfl

theorem sum_siteLoop [AddCommMonoid W] {step : ℕ} (hs : 0 < step) (F : ℕ → W) (e : ℕ) :
    ∀ (n b : ℕ), e - b = n →
    ∑ g ∈ Finset.range step, ((siteLoop (e - (g + b)) (g + b) e step).map F).sum =
      ∑ g ∈ Finset.range (e - b), F (g + b) := by
  intro n
  induction n using Nat.strongRecOn with
  | ind n ih =>
    intro b hb
    have hun : ∀ g ∈ Finset.range step,
        ((siteLoop (e - (g + b)) (g + b) e step).map F).sum =
        (if g + b < e then F (g + b) else 0) +
          ((siteLoop (e - (g + (b + step))) (g + (b + step)) e step).map F).sum := by
      intro g _
      rw [siteLoop_unfold hs]
      by_cases hi : g + b < e
      · rw [if_pos hi, if_pos hi, List.map_cons, List.sum_cons]
        rw [show g + b + step = g + (b + step) by omega]
      · rw [if_neg hi, if_neg hi, siteLoop_unfold hs, if_neg (by omega)]
        simp
    rw [Finset.sum_congr rfl hun, Finset.sum_add_distrib]
    by_cases hbe : b < e
    · rw [ih (e - (b + step)) (by omega) (b + step) rfl]
      by_cases hle : b + step ≤ e
      · have h1 : ∑ g ∈ Finset.range step, (if g + b < e then F (g + b) else 0) =
            ∑ g ∈ Finset.range step, F (g + b) := by
          apply Finset.sum_congr rfl
          intro g hg
          rw [Finset.mem_range] at hg
          rw [if_pos (by omega)]
        rw [h1, show e - b = step + (e - (b + step)) by omega, Finset.sum_range_add]
        congr 1
        apply Finset.sum_congr rfl
        intro g _
        congr 1
        omega
      · rw [show e - (b + step) = 0 by omega, Finset.range_zero, Finset.sum_empty, add_zero]
        rw [sum_range_extend _ (show e - b ≤ step by omega)]
        · apply Finset.sum_congr rfl
          intro g hg
          rw [Finset.mem_range] at hg
          rw [if_pos (by omega)]
        · intro g h1 h2
          rw [if_neg (by omega)]
    · rw [show e - b = 0 by omega, Finset.range_zero, Finset.sum_empty]
      rw [Finset.sum_eq_zero, Finset.sum_eq_zero, add_zero]
      · intro g _
        rw [siteLoop_unfold hs, if_neg (by omega)]
        simp
      · intro g _
        rw [if_neg (by omega)]

theorem blocks_cover {T n : ℕ} (hT : 0 < T) : n ≤ (n + T - 1) / T * T := by
  have := Nat.div_add_mod (n + T - 1) T
  have h2 := Nat.mod_lt (n + T - 1) hT
  rw [Nat.mul_comm] at this
  omega

/-- Every site from `b` to `e` is handled by exactly one thread. -/
theorem sum_threadSites [AddCommMonoid W] (F : ℕ → W) {T : ℕ} {tb : Option ℕ} (b e : ℕ) (hT : 0 < T)
    (htb : ∀ B, tb = some B → 0 < B) :
    ∑ g ∈ Finset.range (numBlocks T tb b e * T), ((threadSites T tb b e g).map F).sum =
      ∑ i ∈ Finset.Ico b e, F i := by
  rw [sum_Ico_range]
  have hc := blocks_cover (n := e - b) hT
  cases tb with
  | none =>
    simp only [numBlocks, threadSites]
    rw [sum_range_extend _ hc]
    · apply Finset.sum_congr rfl
      intro g hg
      rw [Finset.mem_range] at hg
      rw [if_pos (by omega)]
      simp
    · intro g h1 h2
      rw [if_neg (by omega)]
      simp
  | some B =>
    have hB := htb B rfl
    have hs : 0 < T * B := Nat.mul_pos hT hB
    simp only [numBlocks, threadSites]
    rw [← sum_siteLoop hs F e _ b rfl]
    by_cases hgt : (e - b + T - 1) / T > B
    · rw [if_pos hgt, Nat.mul_comm B T]
    · rw [if_neg hgt]
      symm
      apply sum_range_extend
      · rw [Nat.mul_comm T B]
        exact Nat.mul_le_mul_right T (by omega)
      · intro g h1 h2
        rw [siteLoop_unfold hs, if_neg (by omega)]
        simp

/-! ### The tree inside a block -/

theorem treeRuns_inv {op : W → W → W} {T i : ℕ} {m : ℕ → W} {r : Option (ℕ → W)}
    (h : TreeRuns op T i m r) : (i = 0 ∧ r = some m) ∨
      (0 < i ∧ ∃ m1, Kernel op T (treeProg i) m (some m1) ∧ TreeRuns op T (i / 2) m1 r) ∨
      (0 < i ∧ r = none ∧ Kernel op T (treeProg i) m none) := by
  cases h with
  | done => exact Or.inl ⟨rfl, rfl⟩
  | step hi hk hr => exact Or.inr (Or.inl ⟨hi, _, hk, hr⟩)
  | fault hi hk => exact Or.inr (Or.inr ⟨hi, rfl, hk⟩)

theorem mem_treeProg {i t d : ℕ} {x : Src W} :
    (d, x) ∈ treeProg i t ↔ t < i ∧ d = t ∧ x = .cell (t + i) := by
  unfold treeProg
  split <;> simp_all

theorem treeProg_raceFree (i : ℕ) : RaceFree (treeProg i : ℕ → List (ℕ × Src W)) := by
  constructor
  · intro t t' d x x' h h'
    rw [mem_treeProg] at h h'
    omega
  · intro t t' d a x' h h'
    rw [mem_treeProg] at h h'
    obtain ⟨_, _, h3⟩ := h
    injection h3 with h3
    omega

theorem treeProg_inBounds {i T : ℕ} (h : 2 * i ≤ T) :
    InBounds T (treeProg i : ℕ → List (ℕ × Src W)) := by
  rintro t ⟨d, x⟩ hp
  rw [mem_treeProg] at hp
  obtain ⟨h1, rfl, rfl⟩ := hp
  refine ⟨by dsimp only; omega, ?_⟩
  rintro a h3
  injection h3 with h3
  omega

theorem kernel_ok {op : W → W → W} {size : ℕ} {prog : ℕ → List (ℕ × Src W)} {m : ℕ → W}
    {r : Option (ℕ → W)} (hb : InBounds size prog) (h : Kernel op size prog m r) :
    ∃ m1, r = some m1 ∧ Runs op prog m m1 := by
  cases h with
  | ok _ hr => exact ⟨_, rfl, hr⟩
  | fault hn => exact absurd hb hn

theorem tree_spec [AddCommMonoid W] (T : ℕ) : ∀ (k : ℕ) (m : ℕ → W) (r : Option (ℕ → W)),
    2 ^ k ≤ T → TreeRuns (· + ·) T (2 ^ k / 2) m r →
    ∃ m', r = some m' ∧ m' 0 = ∑ t ∈ Finset.range (2 ^ k), m t := by
  intro k
  induction k with
  | zero =>
    intro m r _ h
    rcases treeRuns_inv h with ⟨_, rfl⟩ | ⟨h0, _⟩ | ⟨h0, _⟩
    · exact ⟨m, rfl, by simp⟩
    · simp at h0
    · simp at h0
  | succ k ih =>
    intro m r hT h
    have hhalf : 2 ^ (k + 1) / 2 = 2 ^ k := by rw [pow_succ]; omega
    rw [hhalf] at h
    have hT2 : 2 * 2 ^ k ≤ T := by rw [pow_succ] at hT; omega
    have hpos : 0 < 2 ^ k := Nat.pow_pos (by omega)
    rcases treeRuns_inv h with ⟨h0, _⟩ | ⟨_, m1, hk, hr⟩ | ⟨_, _, hk⟩
    · omega
    · obtain ⟨m1', he, hrun⟩ := kernel_ok (treeProg_inBounds hT2) hk
      injection he with he
      subst he
      obtain ⟨m', hm', hsum⟩ := ih m1 r (by omega) hr
      refine ⟨m', hm', ?_⟩
      rw [hsum, pow_succ, show 2 ^ k * 2 = 2 ^ k + 2 ^ k by omega, Finset.sum_range_add,
        ← Finset.sum_add_distrib]
      apply Finset.sum_congr rfl
      intro t ht
      rw [Finset.mem_range] at ht
      rw [runs_spec (treeProg_raceFree _) hrun t t ⟨_, mem_treeProg.mpr ⟨ht, rfl, rfl⟩⟩, accum_add]
      simp [treeProg, ht, Src.get, Nat.add_comm]
    · obtain ⟨_, he, _⟩ := kernel_ok (treeProg_inBounds hT2) hk
      cases he

theorem kernel_exists (op : W → W → W) (size : ℕ) (prog : ℕ → List (ℕ × Src W)) (m : ℕ → W) (n : ℕ)
    (hn : ∀ t, n ≤ t → prog t = []) : ∃ r, Kernel op size prog m r := by
  by_cases hb : InBounds size prog
  · obtain ⟨m1, h⟩ := runs_exists op prog m n hn
    exact ⟨_, .ok hb h⟩
  · exact ⟨none, .fault hb⟩

theorem tree_exists (op : W → W → W) (T : ℕ) : ∀ (i : ℕ) (m : ℕ → W),
    ∃ r, TreeRuns op T i m r := by
  intro i
  induction i using Nat.strongRecOn with
  | ind i ih =>
    intro m
    by_cases hi : 0 < i
    · obtain ⟨r, hk⟩ := kernel_exists op T (treeProg i) m i (by
        intro t ht; unfold treeProg; rw [if_neg (by omega)])
      cases r with
      | none => exact ⟨none, .fault hi hk⟩
      | some m1 =>
        obtain ⟨r, hr⟩ := ih (i / 2) (by omega) m1
        exact ⟨r, .step hi hk hr⟩
    · have : i = 0 := by omega
      subst this
      exact ⟨_, .done m⟩

theorem threadSum_add [AddCommMonoid W] (f : ℕ → List W) (l : List ℕ) :
    threadSum (· + ·) 0 f l = (l.map fun i => (f i).sum).sum := by
  unfold threadSum
  rw [foldl_add_eq, zero_add]
  induction l with
  | nil => rfl
  | cons a l ih => simp [List.sum_append, ih]

/-- Sum over the threads of block `blk`. -/
def blockSum [AddCommMonoid W] (T : ℕ) (tb : Option ℕ) (b e : ℕ) (f : ℕ → List W) (blk : ℕ) : W :=
  ∑ t ∈ Finset.range T, ((threadSites T tb b e (t + blk * T)).map fun i => (f i).sum).sum

theorem block_spec [AddCommMonoid W] {k : ℕ} {tb : Option ℕ} {b e : ℕ} {f : ℕ → List W} {blk : ℕ}
    {res : Option W} (h : BlockRuns (· + ·) 0 (2 ^ k) tb b e f blk res) :
    res = some (blockSum (2 ^ k) tb b e f blk) := by
  obtain ⟨r, ht, rfl⟩ := h
  obtain ⟨m', rfl, hm⟩ := tree_spec (2 ^ k) k _ r le_rfl ht
  show some (m' 0) = _
  rw [hm]
  unfold blockSum
  congr 1
  apply Finset.sum_congr rfl
  intro t _
  rw [threadSum_add]

theorem block_exists (op : W → W → W) (unit : W) (T : ℕ) (tb : Option ℕ) (b e : ℕ)
    (f : ℕ → List W) (blk : ℕ) : ∃ res, BlockRuns op unit T tb b e f blk res := by
  obtain ⟨r, hr⟩ := tree_exists op T (T / 2)
    (fun t => threadSum op unit f (threadSites T tb b e (t + blk * T)))
  exact ⟨_, r, hr, rfl⟩

theorem sum_blockSum [AddCommMonoid W] {T : ℕ} {tb : Option ℕ} (b e : ℕ) (f : ℕ → List W)
    (hT : 0 < T) (htb : ∀ B, tb = some B → 0 < B) :
    ∑ blk ∈ Finset.range (numBlocks T tb b e), blockSum T tb b e f blk = loopSum b e f := by
  unfold blockSum loopSum
  rw [sum_blocks T (fun g => ((threadSites T tb b e g).map fun i => (f i).sum).sum)]
  exact sum_threadSites (fun i => (f i).sum) b e hT htb

/-! ### The rounds of `gpu_reduce_sum` -/

theorem reduceBlocks_cover (prod : Bool) {T n : ℕ} (hT : 0 < T) (hn : 0 < n) :
    n ≤ reduceBlocks prod T n * T := by
  unfold reduceBlocks
  have h1 := Nat.div_add_mod n T
  have h2 := Nat.mod_lt n hT
  have h3 := Nat.div_add_mod (n - 1) T
  have h4 := Nat.mod_lt (n - 1) hT
  rw [Nat.mul_comm] at h1 h3
  split <;> rw [Nat.succ_mul] <;> omega

theorem mem_reduceProg {T blocks first ns g d : ℕ} {x : Src W} :
    (d, x) ∈ reduceProg T blocks first ns 32 g ↔
      (g < blocks * T ∧ g < ns) ∧ d = first + g ∧
        ∃ i, 1 ≤ i ∧ i < 32 ∧ x = .cell (first + (g + i * ns)) := by
  unfold reduceProg
  by_cases h : g < blocks * T ∧ g < ns
  · rw [if_pos h]
    simp only [List.mem_map, List.mem_range'_1, Prod.mk.injEq]
    constructor
    · rintro ⟨i, ⟨h1, h2⟩, rfl, rfl⟩
      exact ⟨h, rfl, i, h1, by omega, rfl⟩
    · rintro ⟨_, rfl, i, h1, h2, rfl⟩
      exact ⟨i, ⟨h1, by omega⟩, rfl, rfl⟩
  · rw [if_neg h]
    simp [h]

theorem reduceProg_raceFree (T blocks first ns : ℕ) :
    RaceFree (reduceProg T blocks first ns 32 : ℕ → List (ℕ × Src W)) := by
  constructor
  · intro t t' d x x' h h'
    rw [mem_reduceProg] at h h'
    omega
  · intro t t' d a x' h h'
    rw [mem_reduceProg] at h h'
    obtain ⟨_, _, i, h1, _, h3⟩ := h
    injection h3 with h3
    have : ns ≤ i * ns := Nat.le_mul_of_pos_left ns h1
    omega

theorem reduceProg_inBounds {T blocks first ns alloc : ℕ} (h : first + 32 * ns ≤ alloc) :
    InBounds alloc (reduceProg T blocks first ns 32 : ℕ → List (ℕ × Src W)) := by
  rintro t ⟨d, x⟩ hp
  rw [mem_reduceProg] at hp
  obtain ⟨⟨_, h1⟩, rfl, i, h2, h3, rfl⟩ := hp
  refine ⟨by dsimp only; omega, ?_⟩
  rintro a h4
  injection h4 with h4
  have : i * ns ≤ 31 * ns := Nat.mul_le_mul_right ns (by omega)
  omega

theorem reduce_round [AddCommMonoid W] {T blocks first ns : ℕ} {m m1 : ℕ → W}
    (hc : ns ≤ blocks * T) (h : Runs (· + ·) (reduceProg T blocks first ns 32) m m1) :
    ∑ j ∈ Finset.range (ns + first), m1 j = ∑ j ∈ Finset.range (first + 32 * ns), m j := by
  rw [Nat.add_comm ns first, Finset.sum_range_add, Finset.sum_range_add]
  congr 1
  · apply Finset.sum_congr rfl
    intro j hj
    rw [Finset.mem_range] at hj
    apply runs_other (reduceProg_raceFree _ _ _ _) h
    intro t x hx
    rw [mem_reduceProg] at hx
    omega
  · rw [← sum_blocks ns (fun x => m (first + x)), Finset.sum_comm]
    apply Finset.sum_congr rfl
    intro g hg
    rw [Finset.mem_range] at hg
    rw [runs_spec (reduceProg_raceFree _ _ _ _) h g (first + g)
      ⟨_, mem_reduceProg.mpr ⟨⟨by omega, hg⟩, rfl, 1, le_rfl, by omega, rfl⟩⟩, accum_add]
    have hl : ((reduceProg T blocks first ns 32 g : List (ℕ × Src W)).filter
        fun p => p.1 = first + g) = reduceProg T blocks first ns 32 g := by
      rw [List.filter_eq_self]
      rintro ⟨d, x⟩ hx
      rw [mem_reduceProg] at hx
      simpa using hx.2.1
    rw [hl]
    unfold reduceProg
    rw [if_pos ⟨by omega, hg⟩, List.map_map]
    rw [show (32 : ℕ) = 31 + 1 from rfl, Finset.sum_range_succ']
    rw [show (31 + 1 - 1 : ℕ) = 31 from rfl, List.range'_eq_map_range, List.map_map, add_comm,
      ← list_sum_range (fun k => m (first + (g + (k + 1) * ns)))]
    rw [Nat.zero_mul, Nat.add_zero]
    congr 2

theorem reduce_split (n : ℕ) : n % 32 + 32 * ((n - n % 32) / 32) = n := by omega

theorem reduce_spec [AddCommMonoid W] {prod : Bool} {T alloc n : ℕ} {m : ℕ → W} {r : Option W}
    (hT : 0 < T) (h : ReduceRuns (· + ·) 0 prod T alloc n m r) (hn : n ≤ alloc) :
    r = some (∑ i ∈ Finset.range n, m i) := by
  induction h with
  | host _ =>
    rw [foldl_add_eq, zero_add, list_sum_range]
  | @step n m m1 r hgt hk hr ih =>
    have hs := reduce_split n
    obtain ⟨m1', he, hrun⟩ := kernel_ok (reduceProg_inBounds (by omega)) hk
    injection he with he
    subst he
    rw [ih (by omega), reduce_round (reduceBlocks_cover prod hT (by omega)) hrun, hs]
  | @fault n m hgt hk =>
    have hs := reduce_split n
    obtain ⟨_, he, _⟩ := kernel_ok (reduceProg_inBounds (by omega)) hk
    cases he

theorem reduce_exists (op : W → W → W) (unit : W) (prod : Bool) (T alloc : ℕ) :
    ∀ (n : ℕ) (m : ℕ → W), ∃ r, ReduceRuns op unit prod T alloc n m r := by
  intro n
  induction n using Nat.strongRecOn with
  | ind n ih =>
    intro m
    by_cases hn : n ≤ 32
    · exact ⟨_, .host hn⟩
    · obtain ⟨r, hk⟩ := kernel_exists op alloc (reduceProg T
        (reduceBlocks prod T ((n - n % 32) / 32)) (n % 32) ((n - n % 32) / 32) 32) m
        ((n - n % 32) / 32) (by intro t ht; unfold reduceProg; rw [if_neg (by omega)])
      cases r with
      | none => exact ⟨none, .fault (by omega) hk⟩
      | some m1 =>
        obtain ⟨r, hr⟩ := ih ((n - n % 32) / 32 + n % 32) (by omega) m1
        exact ⟨r, .step (by omega) hk hr⟩

/-! ### One copy of the vector for each thread -/

theorem vecProg_nil {T : ℕ} {tb : Option ℕ} {b e : ℕ} (body : ℕ → List (ℕ × W)) {g : ℕ}
    (h : numBlocks T tb b e * T ≤ g) : vecProg T tb b e body g = [] := by
  unfold vecProg
  rw [if_neg (by omega)]

theorem mem_vecProg {T : ℕ} {tb : Option ℕ} {b e : ℕ} {body : ℕ → List (ℕ × W)} {g d : ℕ}
    {x : Src W} : (d, x) ∈ vecProg T tb b e body g ↔ g < numBlocks T tb b e * T ∧
      ∃ i ∈ threadSites T tb b e g, ∃ p ∈ body i,
        d = p.1 * (T * numBlocks T tb b e) + g ∧ x = .val p.2 := by
  unfold vecProg
  by_cases h : g < numBlocks T tb b e * T
  · rw [if_pos h]
    simp only [List.mem_flatMap, List.mem_map, Prod.mk.injEq]
    constructor
    · rintro ⟨i, hi, p, hp, rfl, rfl⟩
      exact ⟨h, i, hi, p, hp, rfl, rfl⟩
    · rintro ⟨_, i, hi, p, hp, rfl, rfl⟩
      exact ⟨i, hi, p, hp, rfl, rfl⟩
  · rw [if_neg h]
    simp [h]

theorem slot_unique {N j j' g g' : ℕ} (hg : g < N) (hg' : g' < N) (h : j * N + g = j' * N + g') :
    j = j' ∧ g = g' := by
  have h1 : (j * N + g) % N = (j' * N + g') % N := by rw [h]
  rw [Nat.mul_comm j, Nat.mul_comm j', Nat.mul_add_mod, Nat.mul_add_mod, Nat.mod_eq_of_lt hg,
    Nat.mod_eq_of_lt hg'] at h1
  subst h1
  have h2 : j * N = j' * N := by omega
  exact ⟨Nat.eq_of_mul_eq_mul_right (by omega) h2, rfl⟩

theorem vecProg_raceFree (T : ℕ) (tb : Option ℕ) (b e : ℕ) (body : ℕ → List (ℕ × W)) :
    RaceFree (vecProg T tb b e body) := by
  constructor
  · intro t t' d x x' h h'
    rw [mem_vecProg] at h h'
    obtain ⟨hg, i, _, p, _, hd, _⟩ := h
    obtain ⟨hg', i', _, p', _, hd', _⟩ := h'
    rw [Nat.mul_comm] at hg hg'
    exact (slot_unique hg hg' (hd.symm.trans hd')).2
  · intro t t' d a x' h _
    rw [mem_vecProg] at h
    obtain ⟨_, i, _, p, _, _, hx⟩ := h
    cases hx

theorem threadSites_range {T : ℕ} {tb : Option ℕ} {b e g i : ℕ} (hT : 0 < T)
    (htb : ∀ B, tb = some B → 0 < B) (h : i ∈ threadSites T tb b e g) : b ≤ i ∧ i < e := by
  cases tb with
  | none =>
    simp only [threadSites] at h
    split at h
    · rw [List.mem_singleton] at h; omega
    · simp at h
  | some B =>
    have hs : 0 < T * B := Nat.mul_pos hT (htb B rfl)
    simp only [threadSites] at h
    have key : ∀ n idx, e - idx = n → b ≤ idx → i ∈ siteLoop (e - idx) idx e (T * B) →
        b ≤ i ∧ i < e := by
      intro n
      induction n using Nat.strongRecOn with
      | ind n ih =>
        intro idx hn hb hi
        rw [siteLoop_unfold hs] at hi
        split at hi
        · rcases List.mem_cons.mp hi with rfl | hi
          · omega
          · exact ih _ (by omega) (idx + T * B) rfl (by omega) hi
        · simp at hi
    exact key _ _ rfl (by omega) h

theorem vecProg_inBounds {T : ℕ} {tb : Option ℕ} {b e n : ℕ} {body : ℕ → List (ℕ × W)} (hT : 0 < T)
    (htb : ∀ B, tb = some B → 0 < B) (hn : ∀ i, b ≤ i → i < e → ∀ p ∈ body i, p.1 < n)
    {N : ℕ} (hN : T * numBlocks T tb b e ≤ N) :
    InBounds (n * N) (vecProg T tb b e body) := by
  rintro g ⟨d, x⟩ hp
  rw [mem_vecProg] at hp
  obtain ⟨hg, i, hi, p, hp, rfl, rfl⟩ := hp
  refine ⟨?_, by rintro a ⟨⟩⟩
  have hr := threadSites_range hT htb hi
  have hlt := hn i hr.1 hr.2 p hp
  rw [Nat.mul_comm] at hg
  have h1 : (p.1 + 1) * (T * numBlocks T tb b e) ≤ n * (T * numBlocks T tb b e) :=
    Nat.mul_le_mul_right _ hlt
  have h2 : n * (T * numBlocks T tb b e) ≤ n * N := Nat.mul_le_mul_left _ hN
  rw [Nat.succ_mul] at h1
  dsimp only
  omega

theorem filter_flatMap_map (l : List ℕ) (body : ℕ → List (ℕ × W)) (mem : ℕ → W) (N g j : ℕ)
    (hg : g < N) [AddCommMonoid W] :
    (((l.flatMap fun i => (body i).map fun p => ((p.1 * N + g, .val p.2) : ℕ × Src W)).filter
      fun p => p.1 = j * N + g).map fun p => p.2.get mem).sum =
      (l.map fun i => (toBin j (body i)).sum).sum := by
  induction l with
  | nil => rfl
  | cons a l ih =>
    rw [List.flatMap_cons, List.filter_append, List.map_append, List.sum_append, ih, List.map_cons,
      List.sum_cons]
    congr 1
    unfold toBin
    induction body a with
    | nil => rfl
    | cons p ps ihp =>
      rw [List.map_cons, List.filter_cons, List.filter_cons]
      by_cases hj : p.1 = j
      · subst hj
        simp only [decide_true, if_true, List.map_cons, List.sum_cons]
        rw [ihp]
        rfl
      · have hne : ¬ (p.1 * N + g = j * N + g) := by
          intro h
          exact hj (slot_unique hg hg h).1
        simp only [hj, hne, decide_false]
        simpa using ihp

theorem vec_cell [AddCommMonoid W] {T : ℕ} {tb : Option ℕ} {b e : ℕ} {body : ℕ → List (ℕ × W)}
    {m m1 : ℕ → W} (h : Runs (· + ·) (vecProg T tb b e body) m m1) (j g : ℕ)
    (hg : g < T * numBlocks T tb b e) :
    m1 (j * (T * numBlocks T tb b e) + g) = m (j * (T * numBlocks T tb b e) + g) +
      ((threadSites T tb b e g).map fun i => (toBin j (body i)).sum).sum := by
  have hacc : m1 (j * (T * numBlocks T tb b e) + g) =
      accum (· + ·) m (vecProg T tb b e body g) (j * (T * numBlocks T tb b e) + g)
        (m (j * (T * numBlocks T tb b e) + g)) := by
    by_cases hx : ∃ x, (j * (T * numBlocks T tb b e) + g, x) ∈ vecProg T tb b e body g
    · exact runs_spec (vecProg_raceFree ..) h g _ hx
    · have hx' : ∀ x, (j * (T * numBlocks T tb b e) + g, x) ∉ vecProg T tb b e body g :=
        fun x hh => hx ⟨x, hh⟩
      rw [accum_notmem _ _ _ _ _ hx']
      apply runs_other (vecProg_raceFree ..) h
      intro t x ht
      by_cases hte : t = g
      · subst hte
        exact hx' x ht
      · rw [mem_vecProg] at ht
        obtain ⟨hg', i, _, p, _, hd, _⟩ := ht
        rw [Nat.mul_comm] at hg'
        exact hte (slot_unique hg hg' hd).2.symm
  rw [hacc, accum_add]
  congr 1
  unfold vecProg
  rw [if_pos (by rw [Nat.mul_comm]; exact hg)]
  exact filter_flatMap_map _ _ _ _ _ _ hg

theorem sumBlocked_eq [AddCommMonoid W] {S n threads : ℕ} (hS : 0 < S) (hd : S ∣ threads)
    (ht : 0 < threads) (D : ℕ → W) {j : ℕ} (hj : j < n) :
    sumBlocked S n threads D j = ∑ g ∈ Finset.range threads, D (j * threads + g) := by
  obtain ⟨q, rfl⟩ := hd
  have hq : 0 < q := by
    rcases Nat.eq_zero_or_pos q with rfl | h
    · simp at ht
    · exact h
  have hdiv : (S * q + S - 1) / S = q := by
    rw [Nat.add_sub_assoc (by omega), Nat.mul_add_div hS, Nat.div_eq_of_lt (by omega), add_zero]
  unfold sumBlocked
  rw [hdiv, Nat.max_eq_right hq, list_sum_range, Nat.mul_comm S q, ← sum_blocks S _ q,
    Finset.sum_comm]
  apply Finset.sum_congr rfl
  intro t htS
  rw [Finset.mem_range] at htS
  rw [list_sum_range]
  apply Finset.sum_congr rfl
  intro i hi
  rw [Finset.mem_range] at hi
  have h1 : i * S + t < q * S := by
    have : (i + 1) * S ≤ q * S := Nat.mul_le_mul_right S hi
    rw [Nat.succ_mul] at this
    omega
  have h2 : (j + 1) * (q * S) ≤ n * (q * S) := Nat.mul_le_mul_right _ hj
  rw [Nat.succ_mul] at h2
  generalize n * (q * S) = A at *
  generalize j * (q * S) = B at *
  generalize i * S = C at *
  rw [if_pos (by omega)]
  congr 1
  omega

end Gpu
end Hila
