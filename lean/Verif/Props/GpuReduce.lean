import Verif.Lemmas.GpuAtomic
import Verif.Model.Reduction
import Mathlib.Algebra.Group.TypeTags.Basic
import Mathlib.Data.Fintype.BigOperators
import Mathlib.Data.Int.Basic

/-!
# C74: reductions on graphics processors
-/

namespace Hila

open BigOperators Gpu

variable {W : Type}

/-! ### The kernels -/

/-- **C74, races.** In the kernels that do the reductions no thread touches what another thread
writes, so that the order in which the threads run has no effect: the rounds inside a block, the rounds
of `gpu_reduce_sum`, and the loop over sites when every thread has its own copy of the vector. -/
theorem C74_race_free (T : ℕ) (tb : Option ℕ) (b e blocks first ns i : ℕ)
    (body : ℕ → List (ℕ × W)) :
    RaceFree (treeProg i : ℕ → List (ℕ × Src W)) ∧
    RaceFree (reduceProg T blocks first ns 32 : ℕ → List (ℕ × Src W)) ∧
    RaceFree (vecProg T tb b e body) :=
  ⟨treeProg_raceFree i, reduceProg_raceFree T blocks first ns, vecProg_raceFree T tb b e body⟩

/-- **C74, schedules.** Two runs of a kernel without races end with the same memory, whatever the
operation is (for instance a rounded addition) and however the threads were interleaved. -/
theorem C74_schedules {op : W → W → W} {prog : ℕ → List (ℕ × Src W)} (hf : RaceFree prog)
    {m m1 m2 : ℕ → W} (h1 : Runs op prog m m1) (h2 : Runs op prog m m2) : m1 = m2 := by
  funext c
  by_cases hc : ∃ t x, (c, x) ∈ prog t
  · obtain ⟨t, x, hx⟩ := hc
    rw [runs_spec hf h1 t c ⟨x, hx⟩, runs_spec hf h2 t c ⟨x, hx⟩]
  · have hc' : ∀ t x, (c, x) ∉ prog t := fun t x hx => hc ⟨t, x, hx⟩
    rw [runs_other hf h1 c hc', runs_other hf h2 c hc']

/-! ### Reductions to one variable -/

theorem numBlocks_pos {T : ℕ} {tb : Option ℕ} {b e : ℕ} (hT : 0 < T)
    (htb : ∀ B, tb = some B → 0 < B) (h : b < e) : 0 < numBlocks T tb b e := by
  have hc := blocks_cover (n := e - b) hT
  have h1 : 0 < (e - b + T - 1) / T := by
    rcases Nat.eq_zero_or_pos ((e - b + T - 1) / T) with h0 | h0
    · rw [h0] at hc; omega
    · exact h0
  cases tb with
  | none => exact h1
  | some B =>
    have := htb B rfl
    simp only [numBlocks]
    split <;> omega

/-- **C74, one variable, partial.** A loop over at least one site with a sum: if the number of
threads in a block is a power of two, every run ends with the sum of everything that the loop body has
added at all sites, each exactly once — for every number of blocks, restricted or not, every schedule
of the threads and every content of unused memory. (Missing: other numbers of threads, see
`C74_threads_wrong`; a rank without sites of the parity of the loop, see `C74_no_sites`.) -/
theorem C74_sum_partial [AddCommMonoid W] (prod : Bool) (k : ℕ) (tb : Option ℕ) (b e : ℕ)
    (f : ℕ → List W) (garb : ℕ → W) (htb : ∀ B, tb = some B → 0 < B) (hbe : b < e) :
    (∃ r, ScalarRuns (· + ·) 0 prod (2 ^ k) tb b e f garb r) ∧
    ∀ r, ScalarRuns (· + ·) 0 prod (2 ^ k) tb b e f garb r → r = some (loopSum b e f) := by
  have hT : 0 < 2 ^ k := Nat.pow_pos (by omega)
  have hpos := numBlocks_pos hT htb hbe
  constructor
  · have hb : ∀ blk, BlockRuns (· + ·) 0 (2 ^ k) tb b e f blk
        (some (blockSum (2 ^ k) tb b e f blk)) := by
      intro blk
      obtain ⟨res, h⟩ := block_exists (· + ·) 0 (2 ^ k) tb b e f blk
      rwa [block_spec h] at h
    obtain ⟨r, hr⟩ := reduce_exists (· + ·) 0 prod (2 ^ k) (numBlocks (2 ^ k) tb b e)
      (numBlocks (2 ^ k) tb b e)
      (fun i => if i < numBlocks (2 ^ k) tb b e then blockSum (2 ^ k) tb b e f i else garb i)
    exact ⟨r, .ok hpos (fun blk _ => hb blk) hr⟩
  · intro r h
    cases h with
    | noBlocks h => omega
    | fault hlt hb => cases block_spec hb
    | @ok outs _ _ hb hr =>
      rw [reduce_spec hT hr le_rfl, ← sum_blockSum b e f hT htb]
      congr 1
      apply Finset.sum_congr rfl
      intro i hi
      rw [Finset.mem_range] at hi
      rw [if_pos hi]
      have := block_spec (hb i hi)
      injection this

example : ∃ r, ScalarRuns (· + ·) (0 : ℤ) false 256 (some 32) 5 10000 (fun i => [(i : ℤ), 1])
    (fun _ => 77) r ∧ r = some (loopSum 5 10000 fun i => [(i : ℤ), 1]) := by
  obtain ⟨⟨r, hr⟩, h⟩ := C74_sum_partial false 8 (some 32) 5 10000 (fun i => [(i : ℤ), 1])
    (fun _ => 77) (by rintro B ⟨⟩; omega) (by omega)
  exact ⟨r, hr, h r hr⟩

/-- **C74, products, partial.** The same for a product. -/
theorem C74_product_partial {M : Type} [CommMonoid M] (k : ℕ) (tb : Option ℕ) (b e : ℕ)
    (f : ℕ → List M) (garb : ℕ → M) (htb : ∀ B, tb = some B → 0 < B) (hbe : b < e) :
    (∃ r, ScalarRuns (· * ·) 1 true (2 ^ k) tb b e f garb r) ∧
    ∀ r, ScalarRuns (· * ·) 1 true (2 ^ k) tb b e f garb r →
      r = some (∏ i ∈ Finset.Ico b e, (f i).prod) :=
  C74_sum_partial (W := Additive M) true k tb b e f garb htb hbe

example : ∃ r, ScalarRuns (· * ·) (1 : ℤ) true 64 none 0 100 (fun _ => [-1]) (fun _ => 0) r :=
  (C74_product_partial 6 none 0 100 (fun _ => [(-1 : ℤ)]) (fun _ => 0) (by rintro B ⟨⟩)
    (by omega)).1

/-- **C74, the same as on processors.** What a rank with a graphics processor collects in a loop that
adds a field is `nodeSum`, the quantity that C10 is about. -/
theorem C74_same_as_cpu {n : ℕ} [AddCommMonoid W] (lay : Layout n) (par : Parity) (mem : ℕ → Mem W)
    (rank k : ℕ) (tb : Option ℕ) (garb : ℕ → W) (htb : ∀ B, tb = some B → 0 < B)
    (hs : (lay.nodeinfo rank).loopBegin par < (lay.nodeinfo rank).loopEnd par) (r : Option W)
    (h : ScalarRuns (· + ·) 0 false (2 ^ k) tb ((lay.nodeinfo rank).loopBegin par)
      ((lay.nodeinfo rank).loopEnd par) (fun i => [mem rank i]) garb r) :
    r = some (nodeSum lay par mem rank) := by
  rw [(C74_sum_partial false k tb _ _ _ garb htb hs).2 r h]
  simp [loopSum, nodeSum]

/-- **C74, counterexample.** A rank that has no site of the parity of the loop: the kernel would be
launched with no blocks, which stops the program. -/
theorem C74_no_sites (op : W → W → W) (unit : W) (prod : Bool) (T : ℕ) (tb : Option ℕ) (b : ℕ)
    (f : ℕ → List W) (garb : ℕ → W) (hT : 0 < T) :
    ScalarRuns op unit prod T tb b b f garb none ∧
    ∀ r, ScalarRuns op unit prod T tb b b f garb r → r = none := by
  have h0 : numBlocks T tb b b = 0 := by
    have h1 : (b - b + T - 1) / T = 0 := Nat.div_eq_of_lt (by omega)
    unfold numBlocks
    rw [h1]
    cases tb <;> simp
  refine ⟨.noBlocks h0, ?_⟩
  intro r h
  cases h with
  | noBlocks _ => rfl
  | fault _ _ => rfl
  | ok h _ _ => omega

/-- **C74, counterexample.** With `N_threads = 192` one third of the sites is lost: the loop adds 1 at
each of 192 sites, and the result is 128. -/
theorem C74_threads_wrong (garb : ℕ → ℤ) :
    (∃ r, ScalarRuns (· + ·) (0 : ℤ) false 192 none 0 192 (fun _ => [1]) garb r) ∧
    ∀ r, ScalarRuns (· + ·) (0 : ℤ) false 192 none 0 192 (fun _ => [1]) garb r → r = some 128 := by
  have hnb : numBlocks 192 none 0 192 = 1 := by decide
  have hblk : ∀ res, BlockRuns (· + ·) (0 : ℤ) 192 none 0 192 (fun _ => [1]) 0 res →
      res = some 128 := by
    rintro res ⟨r, ht, rfl⟩
    have hm : ∀ t, t < 192 → threadSum (· + ·) (0 : ℤ) (fun _ => [1])
        (threadSites 192 none 0 192 (t + 0 * 192)) = 1 := by
      intro t ht
      simp [threadSum, threadSites, ht]
    rw [treeFun_spec 192 96 96 _ r le_rfl (by omega) ht]
    show some (treeFun 96 96 _ 0) = _
    congr 1
  constructor
  · obtain ⟨res, h⟩ := block_exists (· + ·) (0 : ℤ) 192 none 0 192 (fun _ => [1]) 0
    have := hblk res h
    subst this
    refine ⟨_, .ok (outs := fun _ => 128) (by rw [hnb]; omega) ?_ (.host (by rw [hnb]; omega))⟩
    intro blk hlt
    rw [hnb] at hlt
    have : blk = 0 := by omega
    subst this
    exact h
  · intro r h
    cases h with
    | noBlocks h => rw [hnb] at h; omega
    | @fault blk hlt hb =>
      rw [hnb] at hlt
      have : blk = 0 := by omega
      subst this
      cases hblk _ hb
    | @ok outs _ _ hb hr =>
      rw [reduce_spec (by omega) hr le_rfl, hnb]
      have := hblk _ (hb 0 (by rw [hnb]; omega))
      injection this with this
      simp [this]

/-! ### Overlapping communication -/

/-- **C74, overlap, partial.** With overlapping communication the result is the sum over both ranges
of sites if both kernels have blocks and the second has no more blocks than the first. (Missing: the
second has more, see `C74_overlap_wrong`.) -/
theorem C74_overlap_partial [AddCommMonoid W] (prod : Bool) (k : ℕ) (tb : Option ℕ)
    (b0 e0 b1 e1 : ℕ) (f : ℕ → List W) (garb : ℕ → W) (htb : ∀ B, tb = some B → 0 < B)
    (h0 : b0 < e0) (h1 : b1 < e1)
    (hle : numBlocks (2 ^ k) tb b1 e1 ≤ numBlocks (2 ^ k) tb b0 e0) :
    (∃ r, OverlapRuns (· + ·) 0 prod (2 ^ k) tb b0 e0 b1 e1 f garb r) ∧
    ∀ r, OverlapRuns (· + ·) 0 prod (2 ^ k) tb b0 e0 b1 e1 f garb r →
      r = some (loopSum b0 e0 f + loopSum b1 e1 f) := by
  have hT : 0 < 2 ^ k := Nat.pow_pos (by omega)
  have hp0 := numBlocks_pos hT htb h0
  have hp1 := numBlocks_pos hT htb h1
  constructor
  · have hb : ∀ b e blk, BlockRuns (· + ·) 0 (2 ^ k) tb b e f blk
        (some (blockSum (2 ^ k) tb b e f blk)) := by
      intro b e blk
      obtain ⟨res, h⟩ := block_exists (· + ·) 0 (2 ^ k) tb b e f blk
      rwa [block_spec h] at h
    obtain ⟨r, hr⟩ := reduce_exists (· + ·) 0 prod (2 ^ k) (numBlocks (2 ^ k) tb b0 e0)
      (numBlocks (2 ^ k) tb b0 e0)
      (fun i => if i < numBlocks (2 ^ k) tb b1 e1 then
          blockSum (2 ^ k) tb b0 e0 f i + blockSum (2 ^ k) tb b1 e1 f i
        else if i < numBlocks (2 ^ k) tb b0 e0 then blockSum (2 ^ k) tb b0 e0 f i else garb i)
    exact ⟨r, .ok hp0 hp1 hle (fun blk _ => hb b0 e0 blk) (fun blk _ => hb b1 e1 blk) hr⟩
  · intro r h
    cases h with
    | noBlocks h => omega
    | outside h => omega
    | fault0 hlt hb => cases block_spec hb
    | fault1 hlt hb => cases block_spec hb
    | @ok outs0 outs1 _ _ _ _ hb0 hb1 hr =>
      rw [reduce_spec hT hr le_rfl, ← sum_blockSum b0 e0 f hT htb, ← sum_blockSum b1 e1 f hT htb]
      congr 1
      have hext : ∑ i ∈ Finset.range (numBlocks (2 ^ k) tb b1 e1), blockSum (2 ^ k) tb b1 e1 f i =
          ∑ i ∈ Finset.range (numBlocks (2 ^ k) tb b0 e0),
            if i < numBlocks (2 ^ k) tb b1 e1 then blockSum (2 ^ k) tb b1 e1 f i else 0 := by
        rw [sum_range_extend _ hle]
        · apply Finset.sum_congr rfl
          intro i hi
          rw [Finset.mem_range] at hi
          rw [if_pos hi]
        · intro g hg _
          rw [if_neg (by omega)]
      rw [hext, ← Finset.sum_add_distrib]
      apply Finset.sum_congr rfl
      intro i hi
      rw [Finset.mem_range] at hi
      have e0' := block_spec (hb0 i hi)
      injection e0' with e0'
      by_cases hi1 : i < numBlocks (2 ^ k) tb b1 e1
      · have e1' := block_spec (hb1 i hi1)
        injection e1' with e1'
        rw [if_pos hi1, if_pos hi1, e0', e1']
      · rw [if_neg hi1, if_neg hi1, if_pos hi, e0', add_zero]

/-- The hypotheses hold on a rank with 16⁴ sites: 14⁴ are inside. -/
example : ∃ r, OverlapRuns (· + ·) (0 : ℤ) false 256 none 0 38416 38416 65536 (fun _ => [1])
    (fun _ => 5) r := by
  have h2 : numBlocks (2 ^ 8) none 38416 65536 ≤ numBlocks (2 ^ 8) none 0 38416 := by decide
  exact (C74_overlap_partial false 8 none 0 38416 38416 65536 (fun _ => [(1 : ℤ)]) (fun _ => 5)
    (by rintro B ⟨⟩) (by omega) (by omega) h2).1

/-- The number of sites of a box of `L⁴` sites that are not on its surface is `(L-2)⁴`. -/
theorem C74_inner_sites (L d : ℕ) :
    ((Finset.univ : Finset (Fin d → Fin L)).filter
      fun x => ∀ i, (x i).val ≠ 0 ∧ (x i).val ≠ L - 1).card = (L - 2) ^ d := by
  have h1 : ((Finset.univ : Finset (Fin d → Fin L)).filter
      fun x => ∀ i, (x i).val ≠ 0 ∧ (x i).val ≠ L - 1) =
      Fintype.piFinset fun _ => (Finset.univ : Finset (Fin L)).filter
        fun y => y.val ≠ 0 ∧ y.val ≠ L - 1 := by
    ext x
    simp [Fintype.mem_piFinset]
  rw [h1, Fintype.card_piFinset_const]
  congr 1
  have h2 : (((Finset.univ : Finset (Fin L)).filter
      fun y => y.val ≠ 0 ∧ y.val ≠ L - 1).map Fin.valEmbedding) = Finset.Ico 1 (L - 1) := by
    ext y
    simp only [Finset.mem_map, Finset.mem_filter, Finset.mem_univ, true_and, Fin.valEmbedding_apply,
      Finset.mem_Ico]
    constructor
    · rintro ⟨z, ⟨h3, h4⟩, rfl⟩
      have := z.isLt
      omega
    · intro h
      exact ⟨⟨y, by omega⟩, ⟨by dsimp only; omega, by dsimp only; omega⟩, rfl⟩
  rw [← Finset.card_map Fin.valEmbedding, h2, Nat.card_Ico]
  omega

/-- **C74, counterexample.** A rank with 12⁴ = 20736 sites, of which 10⁴ are inside: the second kernel
has 42 blocks, the array was allocated for the 40 blocks of the first one, and two blocks write behind
its end. There is no run without that access. -/
theorem C74_overlap_wrong (op : W → W → W) (unit : W) (prod : Bool) (f : ℕ → List W)
    (garb : ℕ → W) :
    OverlapRuns op unit prod 256 none 0 10000 10000 20736 f garb none ∧
    ∀ r, OverlapRuns op unit prod 256 none 0 10000 10000 20736 f garb r → r = none := by
  have h0 : numBlocks 256 none 0 10000 = 40 := by decide
  have h1 : numBlocks 256 none 10000 20736 = 42 := by decide
  refine ⟨.outside (by rw [h0, h1]; omega), ?_⟩
  intro r h
  cases h with
  | noBlocks _ => rfl
  | outside _ => rfl
  | fault0 _ _ => rfl
  | fault1 _ _ => rfl
  | ok _ _ h _ _ _ => rw [h0, h1] at h; omega

/-! ### Reduction vectors -/

/-- **C74, vectors, partial.** A loop with a reduction vector, when every thread has its own copy: if
the elements are inside the vector and the number of threads of the final kernel divides the number
of copies, every run adds to each element the sum of what the loop body has added to it at all sites,
each exactly once. (Missing: other numbers of threads, `C74_vector_threads_wrong`; products,
`C74_vector_product_wrong`; overlapping communication, `C74_vector_overlap_wrong`; atomic operations,
`C74_vector_atomic_wrong`.) -/
theorem C74_vector_partial [AddCommMonoid W] (S T : ℕ) (tb : Option ℕ) (b e n : ℕ)
    (body : ℕ → List (ℕ × W)) (old : ℕ → W) (hS : 0 < S) (hST : S ∣ T) (hT : 0 < T)
    (htb : ∀ B, tb = some B → 0 < B) (hbe : b < e)
    (hn : ∀ i, b ≤ i → i < e → ∀ p ∈ body i, p.1 < n) :
    (∃ r, VecRuns (· + ·) 0 S T tb b e n body old r) ∧
    ∀ r, VecRuns (· + ·) 0 S T tb b e n body old r →
      ∃ v, r = some v ∧ ∀ j < n, v j = old j + binSum b e body j := by
  have hp := numBlocks_pos hT htb hbe
  have hin := vecProg_inBounds hT htb hn (N := T * numBlocks T tb b e) le_rfl
  constructor
  · obtain ⟨r, hk⟩ := kernel_exists (· + ·) (n * (T * numBlocks T tb b e)) (vecProg T tb b e body)
      (fun _ => (0 : W)) (numBlocks T tb b e * T) (fun t ht => vecProg_nil body ht)
    cases r with
    | none => exact ⟨_, .fault hk⟩
    | some m => exact ⟨_, .ok hp hk⟩
  · intro r h
    cases h with
    | noBlocks h => omega
    | fault hk =>
      obtain ⟨_, he, _⟩ := kernel_ok hin hk
      cases he
    | @ok m _ hk =>
      obtain ⟨m', he, hrun⟩ := kernel_ok hin hk
      injection he with he
      subst he
      refine ⟨_, rfl, ?_⟩
      intro j hj
      congr 1
      rw [sumBlocked_eq hS (Dvd.dvd.mul_left hST _) (Nat.mul_pos hp hT) m hj]
      unfold binSum
      rw [← sum_threadSites (fun i => (toBin j (body i)).sum) b e hT htb]
      apply Finset.sum_congr rfl
      intro g hg
      rw [Finset.mem_range] at hg
      rw [Nat.mul_comm (numBlocks T tb b e) T] at hg ⊢
      rw [vec_cell hrun j g hg, zero_add]

example : ∃ r, VecRuns (· + ·) (0 : ℤ) 128 256 (some 32) 0 10000 10
    (fun i => [(i % 10, (i : ℤ)), (3, 1)]) (fun _ => 4) r :=
  (C74_vector_partial 128 256 (some 32) 0 10000 10 (fun i => [(i % 10, (i : ℤ)), (3, 1)])
    (fun _ => 4) (by omega) (by decide) (by omega) (by rintro B ⟨⟩; omega) (by omega) (by
      intro i _ _ p hp
      simp only [List.mem_cons, List.not_mem_nil, or_false] at hp
      rcases hp with rfl | rfl <;> dsimp only <;> omega)).1

/-- **C74, vectors with overlap, partial.** With overlapping communication the same holds for both
ranges together if the two kernels have the same number of blocks. -/
theorem C74_vector_overlap_partial [AddCommMonoid W] (S T : ℕ) (tb : Option ℕ) (b0 e0 b1 e1 n : ℕ)
    (body : ℕ → List (ℕ × W)) (old : ℕ → W) (hS : 0 < S) (hST : S ∣ T) (hT : 0 < T)
    (htb : ∀ B, tb = some B → 0 < B) (h0 : b0 < e0) (h1 : b1 < e1)
    (heq : numBlocks T tb b1 e1 = numBlocks T tb b0 e0)
    (hn0 : ∀ i, b0 ≤ i → i < e0 → ∀ p ∈ body i, p.1 < n)
    (hn1 : ∀ i, b1 ≤ i → i < e1 → ∀ p ∈ body i, p.1 < n) :
    (∃ r, VecOverlapRuns (· + ·) 0 S T tb b0 e0 b1 e1 n body old r) ∧
    ∀ r, VecOverlapRuns (· + ·) 0 S T tb b0 e0 b1 e1 n body old r →
      ∃ v, r = some v ∧ ∀ j < n, v j = old j + (binSum b0 e0 body j + binSum b1 e1 body j) := by
  have hp0 := numBlocks_pos hT htb h0
  have hp1 := numBlocks_pos hT htb h1
  have hin0 := vecProg_inBounds hT htb hn0 (N := T * numBlocks T tb b0 e0) le_rfl
  have hin1 := vecProg_inBounds hT htb hn1 (N := T * numBlocks T tb b0 e0) (by rw [heq])
  constructor
  · obtain ⟨r, hk⟩ := kernel_exists (· + ·) (n * (T * numBlocks T tb b0 e0))
      (vecProg T tb b0 e0 body) (fun _ => (0 : W)) (numBlocks T tb b0 e0 * T)
      (fun t ht => vecProg_nil body ht)
    cases r with
    | none => exact ⟨_, .fault0 hk⟩
    | some m =>
      obtain ⟨r, hk1⟩ := kernel_exists (· + ·) (n * (T * numBlocks T tb b0 e0))
        (vecProg T tb b1 e1 body) m (numBlocks T tb b1 e1 * T) (fun t ht => vecProg_nil body ht)
      cases r with
      | none => exact ⟨_, .fault1 hk1⟩
      | some m1 => exact ⟨_, .ok hp0 hp1 hk hk1⟩
  · intro r h
    cases h with
    | noBlocks h => omega
    | fault0 hk =>
      obtain ⟨_, he, _⟩ := kernel_ok hin0 hk
      cases he
    | fault1 hk =>
      obtain ⟨_, he, _⟩ := kernel_ok hin1 hk
      cases he
    | @ok m m1 _ _ hk0 hk1 =>
      obtain ⟨m', he, hrun0⟩ := kernel_ok hin0 hk0
      injection he with he
      subst he
      obtain ⟨m1', he, hrun1⟩ := kernel_ok hin1 hk1
      injection he with he
      subst he
      refine ⟨_, rfl, ?_⟩
      intro j hj
      congr 1
      rw [sumBlocked_eq hS (Dvd.dvd.mul_left hST _) (Nat.mul_pos hp0 hT) m1 hj]
      unfold binSum
      rw [← sum_threadSites (fun i => (toBin j (body i)).sum) b0 e0 hT htb,
        ← sum_threadSites (fun i => (toBin j (body i)).sum) b1 e1 hT htb, heq,
        ← Finset.sum_add_distrib]
      apply Finset.sum_congr rfl
      intro g hg
      rw [Finset.mem_range] at hg
      rw [Nat.mul_comm (numBlocks T tb b0 e0) T] at hg ⊢
      have c1 := vec_cell hrun1 j g (by rw [heq]; exact hg)
      rw [heq] at c1
      rw [c1, vec_cell hrun0 j g hg, zero_add]

/-- On large lattices both kernels have the full number of blocks. -/
example : numBlocks 256 (some 32) 38416 65536 = numBlocks 256 (some 32) 0 38416 := by decide

/-- **C74, atomic operations.** On the device, the compare-and-swap loops of `atomic_Add` and
`atomicMultiply` count every contribution exactly once, for every interleaving and every operation:
the final content of a cell is obtained by the contributions to it in some order. -/
theorem C74_atomic [DecidableEq W] {op : W → W → W} {hw : Bool} {prog : ℕ → List (ℕ × W)}
    {m m' : ℕ → W} {n : ℕ} (hn : ∀ t, n ≤ t → prog t = []) (h : ARuns op hw prog m m') (d : ℕ) :
    ∃ o : List W, o.Perm (toBin d ((List.range n).flatMap prog)) ∧
      m' d = o.foldl (fun a v => op v a) (m d) := aruns_spec hn h d

/-- **C74, atomic sums.** The array on the device has the right sums after the loop. -/
theorem C74_atomic_sum [AddCommMonoid W] [DecidableEq W] (hw : Bool) (T : ℕ) (tb : Option ℕ)
    (b e : ℕ) (body : ℕ → List (ℕ × W)) (hT : 0 < T) (htb : ∀ B, tb = some B → 0 < B) :
    (∃ m, ARuns (· + ·) hw (atomicProg T tb b e body) (fun _ => 0) m) ∧
    ∀ m, ARuns (· + ·) hw (atomicProg T tb b e body) (fun _ => 0) m →
      ∀ j, m j = binSum b e body j := by
  have hnil : ∀ t, numBlocks T tb b e * T ≤ t → atomicProg T tb b e body t = [] := by
    intro t ht
    unfold atomicProg
    rw [if_neg (by omega)]
  refine ⟨aruns_exists _ hw _ _ _ hnil, ?_⟩
  intro m h j
  obtain ⟨o, hp, hv⟩ := aruns_spec hnil h j
  rw [hv, foldl_add_swap, zero_add, hp.sum_eq, toBin_flatMap_sum, list_sum_range]
  unfold binSum
  rw [← sum_threadSites (fun i => (toBin j (body i)).sum) b e hT htb]
  apply Finset.sum_congr rfl
  intro g hg
  rw [Finset.mem_range] at hg
  unfold atomicProg
  rw [if_pos hg, toBin_flatMap_sum]

/-- **C74, counterexample.** With atomic operations the sums on the device never reach the vector: what
is added to it is the content of freshly allocated memory. The loop adds 5 to element 0; the
vector gets whatever the memory contained. -/
theorem C74_vector_atomic_wrong (hw : Bool) (garb : ℕ → ℤ) :
    (∃ r, AtomicRuns (· + ·) (0 : ℤ) hw 256 none 0 1 1 (fun _ => [(0, 5)]) garb (fun _ => 0) r) ∧
    ∀ r, AtomicRuns (· + ·) (0 : ℤ) hw 256 none 0 1 1 (fun _ => [(0, 5)]) garb (fun _ => 0) r →
      r = some garb := by
  have hb : ∀ g, ∀ p ∈ atomicProg 256 none 0 1 (fun _ => [(0, (5 : ℤ))]) g, p.1 < 1 := by
    intro g p hp
    unfold atomicProg at hp
    split at hp
    · rw [List.mem_flatMap] at hp
      obtain ⟨_, _, hp⟩ := hp
      rw [List.mem_singleton] at hp
      rw [hp]
      exact Nat.one_pos
    · cases hp
  constructor
  · obtain ⟨m, hm⟩ := (C74_atomic_sum hw 256 none 0 1 (fun _ => [(0, (5 : ℤ))]) (by omega)
      (by rintro B ⟨⟩)).1
    exact ⟨_, .ok (by decide) hb hm⟩
  · intro r h
    cases h with
    | noBlocks h => exact absurd h (by decide)
    | fault h =>
      obtain ⟨g, p, hp, hle⟩ := h
      have := hb g p hp
      omega
    | ok _ _ _ =>
      congr 1
      funext j
      exact zero_add _

/-- **C74, counterexample.** Products of reduction vectors: one site multiplies element 0 by 3, and the
256 copies, of which 255 are 1, are added. The vector is multiplied by 258. -/
theorem C74_vector_product_wrong :
    (∃ r, VecRuns (· * ·) (1 : ℤ) 128 256 (some 32) 0 1 1 (fun _ => [(0, 3)]) (fun _ => 1) r) ∧
    ∀ r, VecRuns (· * ·) (1 : ℤ) 128 256 (some 32) 0 1 1 (fun _ => [(0, 3)]) (fun _ => 1) r →
      ∃ v, r = some v ∧ v 0 = 258 := by
  have hnb : numBlocks 256 (some 32) 0 1 = 1 := by decide
  have hin := vecProg_inBounds (T := 256) (tb := some 32) (b := 0) (e := 1) (n := 1)
    (body := fun _ => [(0, (3 : ℤ))]) (by omega) (by rintro B ⟨⟩; omega) (by
      intro i _ _ p hp
      rw [List.mem_singleton] at hp
      rw [hp]
      exact Nat.one_pos) (N := 256 * numBlocks 256 (some 32) 0 1) le_rfl
  constructor
  · obtain ⟨r, hk⟩ := kernel_exists (· * ·) (1 * (256 * numBlocks 256 (some 32) 0 1))
      (vecProg 256 (some 32) 0 1 fun _ => [(0, (3 : ℤ))]) (fun _ => (1 : ℤ))
      (numBlocks 256 (some 32) 0 1 * 256) (fun t ht => vecProg_nil _ ht)
    cases r with
    | none => exact ⟨_, .fault hk⟩
    | some m => exact ⟨_, .ok (by rw [hnb]; omega) hk⟩
  · intro r h
    cases h with
    | noBlocks h => rw [hnb] at h; omega
    | fault hk =>
      obtain ⟨_, he, _⟩ := kernel_ok hin hk
      cases he
    | @ok m _ hk =>
      obtain ⟨m', he, hrun⟩ := kernel_ok hin hk
      injection he with he
      subst he
      refine ⟨_, rfl, ?_⟩
      have hmem : ∀ t c x, (c, x) ∈ vecProg 256 (some 32) 0 1 (fun _ => [(0, (3 : ℤ))]) t →
          c = t ∧ t = 0 := by
        intro t c x hx
        rw [mem_vecProg] at hx
        obtain ⟨_, i, hi, p, hp, hd, _⟩ := hx
        rw [List.mem_singleton] at hp
        rw [hp] at hd
        have hr := threadSites_range (by omega) (by rintro B ⟨⟩; omega) hi
        have ht : t = 0 := by
          by_contra hne
          have : threadSites 256 (some 32) 0 1 t = [] := by
            simp only [threadSites]
            rw [siteLoop_unfold (by omega), if_neg (by omega)]
          rw [this] at hi
          cases hi
        exact ⟨by omega, ht⟩
      have hm0 : m 0 = 3 := by
        rw [runs_spec (vecProg_raceFree ..) hrun 0 0 ⟨.val 3, by
          rw [mem_vecProg]
          exact ⟨by decide, 0, by decide, (0, 3), by simp, by simp, rfl⟩⟩]
        rfl
      have hm1 : ∀ c, c ≠ 0 → m c = 1 := by
        intro c hc
        apply runs_other (vecProg_raceFree ..) hrun
        intro t x hx
        have := hmem t c x hx
        omega
      rw [hnb, sumBlocked_eq (by omega) (by decide) (by omega) m (by omega), Finset.sum_range_succ']
      have : ∀ k ∈ Finset.range 255, m (0 * (1 * 256) + (k + 1)) = 1 := by
        intro k _
        exact hm1 _ (by omega)
      rw [Finset.sum_congr rfl this]
      simp [hm0]

/-- **C74, counterexample.** With `N_threads = 64` and the default `GPU_BLOCK_REDUCTION_THREADS = 128`
the copies of the next element are counted too: the loop adds 5 to element 1, and element 0 gets 5
as well. -/
theorem C74_vector_threads_wrong :
    (∃ r, VecRuns (· + ·) (0 : ℤ) 128 64 (some 32) 0 1 2 (fun _ => [(1, 5)]) (fun _ => 0) r) ∧
    ∀ r, VecRuns (· + ·) (0 : ℤ) 128 64 (some 32) 0 1 2 (fun _ => [(1, 5)]) (fun _ => 0) r →
      ∃ v, r = some v ∧ v 0 = 5 := by
  have hnb : numBlocks 64 (some 32) 0 1 = 1 := by decide
  have hin := vecProg_inBounds (T := 64) (tb := some 32) (b := 0) (e := 1) (n := 2)
    (body := fun _ => [(1, (5 : ℤ))]) (by omega) (by rintro B ⟨⟩; omega) (by
      intro i _ _ p hp
      rw [List.mem_singleton] at hp
      rw [hp]
      exact Nat.one_lt_two) (N := 64 * numBlocks 64 (some 32) 0 1) le_rfl
  constructor
  · obtain ⟨r, hk⟩ := kernel_exists (· + ·) (2 * (64 * numBlocks 64 (some 32) 0 1))
      (vecProg 64 (some 32) 0 1 fun _ => [(1, (5 : ℤ))]) (fun _ => (0 : ℤ))
      (numBlocks 64 (some 32) 0 1 * 64) (fun t ht => vecProg_nil _ ht)
    cases r with
    | none => exact ⟨_, .fault hk⟩
    | some m => exact ⟨_, .ok (by rw [hnb]; omega) hk⟩
  · intro r h
    cases h with
    | noBlocks h => rw [hnb] at h; omega
    | fault hk =>
      obtain ⟨_, he, _⟩ := kernel_ok hin hk
      cases he
    | @ok m _ hk =>
      obtain ⟨m', he, hrun⟩ := kernel_ok hin hk
      injection he with he
      subst he
      refine ⟨_, rfl, ?_⟩
      have hcell : ∀ j < 2, ∀ g < 64, m (j * 64 + g) = if j = 1 ∧ g = 0 then 5 else 0 := by
        intro j hj g hg
        have hc := vec_cell hrun j g (by rw [hnb]; omega)
        rw [hnb] at hc
        rw [show 64 * 1 = 64 from rfl] at hc
        rw [hc, zero_add]
        by_cases hg0 : g = 0
        · subst hg0
          have hl : threadSites 64 (some 32) 0 1 0 = [0] := by decide
          rw [hl]
          by_cases hj1 : j = 1
          · subst hj1
            simp [toBin]
          · have : ¬ (1 = j) := fun h => hj1 h.symm
            simp [toBin, hj1, this]
        · have hl : threadSites 64 (some 32) 0 1 g = [] := by
            simp only [threadSites]
            rw [siteLoop_unfold (by omega), if_neg (by omega)]
          rw [hl]
          simp [hg0]
      have hall : ∀ x < 128, m x = if x = 64 then 5 else 0 := by
        intro x hx
        have := hcell (x / 64) (by omega) (x % 64) (by omega)
        rw [show x / 64 * 64 + x % 64 = x by omega] at this
        rw [this]
        by_cases h : x = 64
        · subst h; rfl
        · rw [if_neg h, if_neg (by omega)]
      rw [hnb]
      unfold sumBlocked
      rw [list_sum_range]
      have : ∀ t ∈ Finset.range 128, ((List.range (max 1 ((1 * 64 + 128 - 1) / 128))).map fun i =>
          if 0 * (1 * 64) + t + i * 128 < 2 * (1 * 64) then m (0 * (1 * 64) + t + i * 128)
          else 0).sum = if t = 64 then (5 : ℤ) else 0 := by
        intro t ht
        rw [Finset.mem_range] at ht
        rw [show max 1 ((1 * 64 + 128 - 1) / 128) = 1 from rfl, List.range_one]
        simp only [List.map_cons, List.map_nil, List.sum_cons, List.sum_nil, Nat.zero_mul,
          Nat.zero_add, add_zero]
        rw [if_pos (by omega), hall t ht]
      rw [Finset.sum_congr rfl this]
      simp

/-- **C74, counterexample.** With overlapping communication, 512 sites in the first range (2 blocks)
and one in the second (1 block): the second kernel computes the place of a copy from its own
number of blocks. Its site adds 5 to element 1; element 0 gets it. -/
theorem C74_vector_overlap_wrong :
    (∃ r, VecOverlapRuns (· + ·) (0 : ℤ) 128 256 (some 32) 0 512 512 513 2
      (fun i => if i = 512 then [(1, 5)] else []) (fun _ => 0) r) ∧
    ∀ r, VecOverlapRuns (· + ·) (0 : ℤ) 128 256 (some 32) 0 512 512 513 2
      (fun i => if i = 512 then [(1, 5)] else []) (fun _ => 0) r →
      ∃ v, r = some v ∧ v 0 = 5 ∧ v 1 = 0 := by
  have hnb0 : numBlocks 256 (some 32) 0 512 = 2 := by decide
  have hnb1 : numBlocks 256 (some 32) 512 513 = 1 := by decide
  have hn : ∀ (b e i : ℕ), b ≤ i → i < e →
      ∀ p ∈ (fun i => if i = 512 then [(1, (5 : ℤ))] else []) i, p.1 < 2 := by
    intro b e i _ _ p hp
    dsimp only at hp
    split at hp
    · rw [List.mem_singleton] at hp
      rw [hp]
      exact Nat.one_lt_two
    · cases hp
  have hin0 := vecProg_inBounds (T := 256) (tb := some 32) (b := 0) (e := 512) (n := 2)
    (body := fun i => if i = 512 then [(1, (5 : ℤ))] else []) (by omega)
    (by rintro B ⟨⟩; omega) (hn 0 512) (N := 256 * numBlocks 256 (some 32) 0 512) le_rfl
  have hin1 := vecProg_inBounds (T := 256) (tb := some 32) (b := 512) (e := 513) (n := 2)
    (body := fun i => if i = 512 then [(1, (5 : ℤ))] else []) (by omega)
    (by rintro B ⟨⟩; omega) (hn 512 513) (N := 256 * numBlocks 256 (some 32) 0 512)
    (by rw [hnb0, hnb1]; omega)
  constructor
  · obtain ⟨r, hk⟩ := kernel_exists (· + ·) (2 * (256 * numBlocks 256 (some 32) 0 512))
      (vecProg 256 (some 32) 0 512 fun i => if i = 512 then [(1, (5 : ℤ))] else [])
      (fun _ => (0 : ℤ)) (numBlocks 256 (some 32) 0 512 * 256) (fun t ht => vecProg_nil _ ht)
    cases r with
    | none => exact ⟨_, .fault0 hk⟩
    | some m =>
      obtain ⟨r, hk1⟩ := kernel_exists (· + ·) (2 * (256 * numBlocks 256 (some 32) 0 512))
        (vecProg 256 (some 32) 512 513 fun i => if i = 512 then [(1, (5 : ℤ))] else [])
        m (numBlocks 256 (some 32) 512 513 * 256) (fun t ht => vecProg_nil _ ht)
      cases r with
      | none => exact ⟨_, .fault1 hk1⟩
      | some m1 => exact ⟨_, .ok (by rw [hnb0]; omega) (by rw [hnb1]; omega) hk hk1⟩
  · intro r h
    cases h with
    | noBlocks h => rw [hnb0, hnb1] at h; omega
    | fault0 hk =>
      obtain ⟨_, he, _⟩ := kernel_ok hin0 hk
      cases he
    | fault1 hk =>
      obtain ⟨_, he, _⟩ := kernel_ok hin1 hk
      cases he
    | @ok m m1 _ _ hk0 hk1 =>
      obtain ⟨m', he, hrun0⟩ := kernel_ok hin0 hk0
      injection he with he
      subst he
      obtain ⟨m1', he, hrun1⟩ := kernel_ok hin1 hk1
      injection he with he
      subst he
      have hm : ∀ c, m c = 0 := by
        intro c
        have hc := vec_cell hrun0 (c / 512) (c % 512) (by rw [hnb0]; omega)
        rw [hnb0, show 256 * 2 = 512 from rfl, show c / 512 * 512 + c % 512 = c by omega] at hc
        rw [hc, zero_add]
        apply List.sum_eq_zero
        intro x hx
        rw [List.mem_map] at hx
        obtain ⟨i, hi, rfl⟩ := hx
        have hr := threadSites_range (by omega) (by rintro B ⟨⟩; omega) hi
        rw [if_neg (by omega)]
        rfl
      have hm1 : ∀ c, m1 c = if c = 256 then 5 else 0 := by
        intro c
        have hc := vec_cell hrun1 (c / 256) (c % 256) (by rw [hnb1]; omega)
        rw [hnb1, show 256 * 1 = 256 from rfl, show c / 256 * 256 + c % 256 = c by omega] at hc
        rw [hc, hm, zero_add]
        by_cases hg0 : c % 256 = 0
        · have hl : threadSites 256 (some 32) 512 513 0 = [512] := by decide
          rw [hg0, hl]
          by_cases hj1 : c / 256 = 1
          · rw [if_pos (by omega)]
            simp [toBin, hj1]
          · have hj2 : ¬ (1 = c / 256) := fun h => hj1 h.symm
            rw [if_neg (by omega)]
            simp [toBin, hj2]
        · have hl : threadSites 256 (some 32) 512 513 (c % 256) = [] := by
            simp only [threadSites]
            rw [siteLoop_unfold (by omega), if_neg (by omega)]
          rw [hl, if_neg (by omega)]
          rfl
      refine ⟨_, rfl, ?_, ?_⟩
      · rw [hnb0, sumBlocked_eq (by omega) (by decide) (by omega) m1 (by omega), zero_add]
        have : ∀ g ∈ Finset.range (2 * 256), m1 (0 * (2 * 256) + g) =
            if g = 256 then (5 : ℤ) else 0 := by
          intro g _
          rw [hm1]
          simp
        rw [Finset.sum_congr rfl this]
        simp
      · rw [hnb0, sumBlocked_eq (by omega) (by decide) (by omega) m1 (by omega), zero_add]
        apply Finset.sum_eq_zero
        intro g _
        rw [hm1, if_neg (by omega)]

end Hila
