import Verif.Model.GpuRng
import Verif.Model.Layout
import Mathlib.Data.Nat.Bitwise
import Mathlib.Data.Finset.Card
import Mathlib.Data.Finset.Prod
import Mathlib.Data.Real.Basic
import Mathlib.Tactic.Ring
import Mathlib.Tactic.Linarith
import Mathlib.Tactic.NormNum
import Mathlib.Tactic.Positivity

/-!
# C109: random numbers on graphics processors

Property theorems about `Model/GpuRng`.
-/

namespace Hila

/-! ## Seeds -/

theorem rngInit_inj {seed n R r r' x x' : ℕ} (hR : R * n ≤ 2 ^ 64) (hr : r < R) (hr' : r' < R) (hx : x < n) (hx' : x' < n)
    (h : (rngInit seed r n x).1 = (rngInit seed r' n x').1) : r = r' ∧ x = x' := by
  unfold rngInit at h
  have b1 : r * n + x < 2 ^ 64 := lt_of_lt_of_le (by nlinarith [Nat.mul_le_mul_right n (Nat.succ_le_of_lt hr)]) hR
  have b2 : r' * n + x' < 2 ^ 64 := lt_of_lt_of_le (by nlinarith [Nat.mul_le_mul_right n (Nat.succ_le_of_lt hr')]) hR
  have e : r * n + x = r' * n + x' := by
    dsimp only at h
    generalize r * n = a at *
    generalize r' * n = b at *
    omega
  have e1 : (r * n + x) / n = r := by
    rw [Nat.mul_comm, Nat.mul_add_div (by omega), Nat.div_eq_of_lt hx, Nat.add_zero]
  have e2 : (r' * n + x') / n = r' := by
    rw [Nat.mul_comm, Nat.mul_add_div (by omega), Nat.div_eq_of_lt hx', Nat.add_zero]
  rw [e, e2] at e1
  subst e1
  omega

/-- **C109, all seeds are different** for nodes with the same number of generators, if there are fewer than `2 ^ 64` generators together: no two
generators of the program, on the same rank or on different ranks, get the same seed. -/
theorem C109_seeds_partial (B : ℤ) (T seed R : ℕ) (vol : ℕ → ℕ) (n : ℕ) (hn : ∀ r < R, rngCount B T (vol r) = n) (hR : R * n ≤ 2 ^ 64)
    (r r' x x' : ℕ) (hr : r < R) (hr' : r' < R) (hx : x < rngCount B T (vol r)) (hx' : x' < rngCount B T (vol r'))
    (h : (r, x) ≠ (r', x')) :
    (rngInit seed r (rngCount B T (vol r)) x).1 ≠ (rngInit seed r' (rngCount B T (vol r')) x').1 := by
  rw [hn r hr] at hx ⊢
  rw [hn r' hr'] at hx' ⊢
  intro he
  obtain ⟨rfl, rfl⟩ := rngInit_inj hR hr hr' hx hx' he
  exact h rfl

/-- **C109, large nodes.** With the default restriction of the blocks the numbers agree if every node has more than `(B - 1) T` sites (7936 by
default), whatever the sizes are. -/
theorem C109_large_nodes (B T vol : ℕ) (hB : 0 < B) (hT : 0 < T) (hv : (B - 1) * T < vol) : rngCount B T vol = B * T := by
  unfold rngCount rngBlocks
  have h : B ≤ (vol + T - 1) / T := by
    rw [Nat.le_div_iff_mul_le hT]
    obtain ⟨b, rfl⟩ : ∃ b, B = b + 1 := ⟨B - 1, by omega⟩
    simp only [Nat.add_sub_cancel] at hv
    have : (b + 1) * T = b * T + T := by ring
    omega
  dsimp only
  by_cases hlt : B < (vol + T - 1) / T
  · rw [if_pos ⟨by omega, by exact_mod_cast hlt⟩, Int.toNat_natCast]
  · rw [if_neg (fun hc => hlt (by exact_mod_cast hc.2))]
    congr 1
    omega

example : ∀ r < 4, rngCount 32 256 (if r % 2 = 0 then 24 * 24 * 24 else 24 * 24 * 23) = 8192 := by decide

/-- **C109, partitions.** Generators of different partitions get different seeds if each partition has at most `2 ^ 28` generators (with the
same number on every rank) and there are fewer than `2 ^ 36` partitions. -/
theorem C109_partitions (seed n R l l' r r' x x' : ℕ) (hs : seed < 2 ^ 64) (hR : R * n ≤ 2 ^ 28) (hl : l < 2 ^ 36) (hl' : l' < 2 ^ 36) (hne : l ≠ l')
    (hr : r < R) (hr' : r' < R) (hx : x < n) (hx' : x' < n) :
    (rngInit (partitionSeed true seed l) r n x).1 ≠ (rngInit (partitionSeed true seed l') r' n x').1 := by
  have hp : ∀ l < 2 ^ 36, partitionSeed true seed l = 2 ^ 28 * (seed / 2 ^ 28 ^^^ l) + seed % 2 ^ 28 := by
    intro l hl
    unfold partitionSeed
    have h0 : (l <<< 28) % 2 ^ 64 = 2 ^ 28 * l := by
      rw [Nat.shiftLeft_eq]
      omega
    rw [if_pos rfl, h0]
    apply Nat.eq_of_testBit_eq
    intro i
    rw [Nat.testBit_two_pow_mul_add _ (Nat.mod_lt _ (by positivity)), Nat.testBit_xor, Nat.testBit_two_pow_mul]
    by_cases hi : i < 28
    · rw [if_pos hi, Nat.testBit_mod_two_pow]
      simp [hi, show ¬28 ≤ i by omega]
    · rw [if_neg hi, Nat.testBit_xor, Nat.testBit_div_two_pow]
      simp [show 28 ≤ i by omega]
  have b1 : r * n + x < 2 ^ 28 := lt_of_lt_of_le (by nlinarith [Nat.mul_le_mul_right n (Nat.succ_le_of_lt hr)]) hR
  have b2 : r' * n + x' < 2 ^ 28 := lt_of_lt_of_le (by nlinarith [Nat.mul_le_mul_right n (Nat.succ_le_of_lt hr')]) hR
  have hq : ∀ l < 2 ^ 36, seed / 2 ^ 28 ^^^ l < 2 ^ 36 := fun l hl => Nat.xor_lt_two_pow (by omega) hl
  have hd : seed / 2 ^ 28 ^^^ l ≠ seed / 2 ^ 28 ^^^ l' := fun h => hne (Nat.xor_right_injective h)
  have q1 := hq l hl
  have q2 := hq l' hl'
  unfold rngInit
  rw [hp l hl, hp l' hl']
  dsimp only
  generalize seed / 2 ^ 28 ^^^ l = a at *
  generalize seed / 2 ^ 28 ^^^ l' = b at *
  generalize r * n = c at *
  generalize r' * n = d at *
  have hm : seed % 2 ^ 28 < 2 ^ 28 := Nat.mod_lt _ (by positivity)
  generalize seed % 2 ^ 28 = s at *
  omega

example : (8 * 8192 ≤ 2 ^ 28) ∧ (3 : ℕ) < 2 ^ 36 := by decide

/-- **C109 fails for nodes of different size.** The rank is multiplied by the number of generators of this rank and not by a common number. With ten slices
of a lattice on four nodes the ranks 2 and 3 have three and two slices (`divisors`); with 255 sites in a slice every generator of the rank 3 is in
the same state as the generator with the same number of the rank 2: the nodes use the same random numbers. -/
theorem C109_seeds_wrong (seed : ℕ) : divisors 10 4 = [0, 3, 5, 8, 10] ∧ rngCount 32 256 (3 * 255) = 768 ∧ rngCount 32 256 (2 * 255) = 512 ∧
    ∀ x < 512, rngInit seed 3 (rngCount 32 256 (2 * 255)) x = rngInit seed 2 (rngCount 32 256 (3 * 255)) x := by
  have h1 : rngCount 32 256 (3 * 255) = 768 := by decide
  have h2 : rngCount 32 256 (2 * 255) = 512 := by decide
  refine ⟨by decide, h1, h2, fun x _ => ?_⟩
  rw [h1, h2]
  rfl

/-- **C109 fails for nodes of different size, in general**: whenever the numbers of generators are inversely proportional to the ranks. Without a restriction of the
blocks this concerns lattices of every size. -/
theorem C109_seeds_wrong_general (B : ℤ) (T seed r r' v v' : ℕ) (h : r * rngCount B T v = r' * rngCount B T v') (x : ℕ) :
    rngInit seed r (rngCount B T v) x = rngInit seed r' (rngCount B T v') x := by
  unfold rngInit
  rw [h]

example : 4 * rngCount 0 256 (5 * 32 ^ 3) = 5 * rngCount 0 256 (4 * 32 ^ 3) := by decide

/-! ## Memory -/

theorem rngBlocks_mono (B : ℤ) (T v v' : ℕ) (h : v ≤ v') : rngBlocks B T v ≤ rngBlocks B T v' := by
  have hm : (v + T - 1) / T ≤ (v' + T - 1) / T := Nat.div_le_div_right (by omega)
  unfold rngBlocks
  dsimp only
  generalize (v + T - 1) / T = a at *
  generalize (v' + T - 1) / T = b at *
  split_ifs <;> omega

theorem rngCount_mono (B : ℤ) (T v v' : ℕ) (h : v ≤ v') : rngCount B T v ≤ rngCount B T v' := Nat.mul_le_mul_right _ (rngBlocks_mono B T v v' h)

theorem lt_blocks_mul {T m x : ℕ} (hT : 0 < T) (h : x < m) : x < (m + T - 1) / T * T := by
  have := Nat.div_add_mod (m + T - 1) T
  have h2 := Nat.mod_lt (m + T - 1) hT
  rw [Nat.mul_comm] at this
  omega

theorem rngLoop_thread (B : ℤ) (T b e : ℕ) (p : ℕ × ℕ) (hp : p ∈ rngLoop B T b e) : p.1 < rngCount B T (e - b) := by
  unfold rngLoop at hp
  unfold rngCount rngBlocks
  dsimp only at hp ⊢
  by_cases h0 : 0 < B
  · rw [if_pos h0] at hp
    simp only [List.mem_flatMap, List.mem_map, List.mem_range] at hp
    obtain ⟨x, hx, s, -, rfl⟩ := hp
    by_cases h : ((e - b + T - 1) / T : ℕ) > B
    · rw [if_pos h] at hx
      rw [if_pos ⟨h0, h⟩]
      exact hx
    · rw [if_neg h] at hx
      rw [if_neg fun hc => h hc.2]
      exact hx
  · rw [if_neg h0] at hp
    simp only [List.mem_map, List.mem_filter, List.mem_range] at hp
    obtain ⟨x, ⟨hx, -⟩, rfl⟩ := hp
    rw [if_neg fun hc => h0 hc.1]
    exact hx

theorem mapM_all_some {α β : Type} (f : α → Option β) (g : α → β) : ∀ l : List α, (∀ p ∈ l, f p = some (g p)) → l.mapM f = some (l.map g)
  | [], _ => rfl
  | a :: l, h => by
    rw [List.mapM_cons, h a (List.mem_cons_self ..), mapM_all_some f g l fun p hp => h p (List.mem_cons_of_mem _ hp)]
    rfl

theorem mapM_some_none {α β : Type} (f : α → Option β) : ∀ (l : List α) (p : α), p ∈ l → f p = none → l.mapM f = none
  | a :: l, p, hp, h => by
    rw [List.mapM_cons]
    rcases List.mem_cons.1 hp with rfl | hp
    · rw [h]
      rfl
    · rw [mapM_some_none f l p hp h]
      cases f a <;> rfl

theorem rngLoop_blocks (B : ℤ) (T m : ℕ) (h0 : 0 < B) :
    (if ((m + T - 1) / T : ℕ) > B then B.toNat else (m + T - 1) / T) * T ≤ T * B.toNat := by
  rw [Nat.mul_comm T]
  apply Nat.mul_le_mul_right
  split_ifs with h
  · exact le_rfl
  · omega

theorem rngLoop_mem (B : ℤ) (T b e : ℕ) (hT : 0 < T) (x s : ℕ) : (x, s) ∈ rngLoop B T b e ↔
    b ≤ s ∧ s < e ∧ x = (if 0 < B then (s - b) % (T * B.toNat) else s - b) := by
  unfold rngLoop
  dsimp only
  by_cases h0 : 0 < B
  · rw [if_pos h0, if_pos h0]
    have hbl := rngLoop_blocks B T (e - b) h0
    have hS : 0 < T * B.toNat := Nat.mul_pos hT (by omega)
    simp only [List.mem_flatMap, List.mem_map, List.mem_range, List.mem_filter, decide_eq_true_eq, Prod.mk.injEq]
    constructor
    · rintro ⟨x', hx', s', ⟨⟨j, hj, rfl⟩, hs⟩, rfl, rfl⟩
      refine ⟨by omega, hs, ?_⟩
      rw [show x' + b + j * (T * B.toNat) - b = x' + j * (T * B.toNat) by omega, Nat.add_mul_mod_self_right, Nat.mod_eq_of_lt (by omega)]
    · rintro ⟨h1, h2, rfl⟩
      have hd := Nat.mod_add_div (s - b) (T * B.toNat)
      rw [Nat.mul_comm (T * B.toNat)] at hd
      have hm := Nat.mod_lt (s - b) hS
      refine ⟨_, ?_, s, ⟨⟨(s - b) / (T * B.toNat), ?_, ?_⟩, h2⟩, rfl, rfl⟩
      · split_ifs with h
        · rw [Nat.mul_comm B.toNat]
          exact hm
        · exact lt_of_le_of_lt (Nat.mod_le _ _) (lt_blocks_mul hT (by omega))
      · exact lt_of_le_of_lt (Nat.div_le_self _ _) (by omega)
      · omega
  · rw [if_neg h0, if_neg h0]
    simp only [List.mem_map, List.mem_range, List.mem_filter, decide_eq_true_eq, Prod.mk.injEq]
    constructor
    · rintro ⟨x', ⟨hx', hs⟩, rfl, rfl⟩
      exact ⟨by omega, hs, by omega⟩
    · rintro ⟨h1, h2, rfl⟩
      exact ⟨s - b, ⟨lt_blocks_mul hT (by omega), by omega⟩, rfl, by omega⟩

theorem rngLoop_nodup (B : ℤ) (T b e : ℕ) (hT : 0 < T) : ((rngLoop B T b e).map Prod.snd).Nodup := by
  have hpair : (rngLoop B T b e).Nodup := by
    unfold rngLoop
    dsimp only
    by_cases h0 : 0 < B
    · rw [if_pos h0]
      have hS : 0 < T * B.toNat := Nat.mul_pos hT (by omega)
      rw [List.nodup_flatMap]
      constructor
      · intro x _
        apply List.Nodup.map (fun s s' h => (Prod.mk.injEq _ _ _ _ ▸ h).2)
        apply List.Nodup.filter
        apply List.Nodup.map _ List.nodup_range
        intro j j' h
        exact Nat.eq_of_mul_eq_mul_right hS (Nat.add_left_cancel h)
      · apply List.Nodup.pairwise_of_forall_ne List.nodup_range
        intro x _ x' _ hne p hp hp'
        simp only [List.mem_map] at hp hp'
        obtain ⟨s, -, rfl⟩ := hp
        obtain ⟨s', -, h⟩ := hp'
        exact hne (Prod.mk.inj h).1.symm
    · rw [if_neg h0]
      apply List.Nodup.map (fun s s' h => (Prod.mk.injEq _ _ _ _ ▸ h).1)
      exact List.Nodup.filter _ List.nodup_range
  apply List.Nodup.map_on _ hpair
  rintro ⟨x, s⟩ hp ⟨x', s'⟩ hp' h
  simp only at h
  subst h
  have h1 := ((rngLoop_mem B T b e hT x s).1 hp).2.2
  have h2 := ((rngLoop_mem B T b e hT x' s).1 hp').2.2
  rw [h1, h2]

/-- **C109, every site once.** The threads of a loop with random numbers visit every site of the loop exactly once, whatever the restriction
of the blocks is. -/
theorem C109_sites (B : ℤ) (T b e : ℕ) (hT : 0 < T) : ((rngLoop B T b e).map Prod.snd).Perm (List.range' b (e - b)) := by
  rw [List.perm_ext_iff_of_nodup (rngLoop_nodup B T b e hT) List.nodup_range']
  intro s
  rw [List.mem_range'_1, List.mem_map]
  constructor
  · rintro ⟨⟨x, s'⟩, hp, rfl⟩
    have := (rngLoop_mem B T b e hT x s').1 hp
    dsimp only
    omega
  · intro h
    exact ⟨(_, s), (rngLoop_mem B T b e hT _ s).2 ⟨h.1, by omega, rfl⟩, rfl⟩

example : (rngLoop 2 4 3 20).map Prod.fst = [0, 0, 0, 1, 1, 2, 2, 3, 3, 4, 4, 5, 5, 6, 6, 7, 7] := by decide

theorem rngCount_loop (B V : ℤ) (T v : ℕ) : rngCount (loopBlocks B V) T v ≤ rngCount B T v := by
  unfold rngCount
  apply Nat.mul_le_mul_right
  unfold rngBlocks loopBlocks
  dsimp only
  generalize (v + T - 1) / T = a at *
  split_ifs <;> omega

/-- **C109, memory (part of the property).** Seeded with a lattice of `vol` sites on this node, any loop over at most as many sites finds its generators, also
a loop with a reduction to an array that is restricted to another number of blocks: every thread reads a generator of its own
that was set by the seeding. *Missing*: loops on a lattice with more sites, see `C109_lattice_wrong`. -/
theorem C109_memory_partial (B V : ℤ) (T vol seed rank b e : ℕ) (hB : 0 ≤ B) (hv : e - b ≤ vol) :
    ∃ m, initDeviceRng B T vol seed rank none = some m ∧ runRngLoop (loopBlocks B V) T b e m =
      some ((rngLoop (loopBlocks B V) T b e).map fun p => (p.2, rngInit seed rank (rngCount B T vol) p.1)) := by
  refine ⟨some ((List.range (rngCount B T vol)).map fun x => some (rngInit seed rank (rngCount B T vol) x)), ?_, ?_⟩
  · unfold initDeviceRng
    rw [if_neg (by omega)]
    simp
  · unfold runRngLoop
    apply mapM_all_some
    intro p hp
    have h : p.1 < rngCount B T vol := lt_of_lt_of_le (rngLoop_thread _ T b e p hp) ((rngCount_loop B V T _).trans (rngCount_mono B T _ _ hv))
    simp [h]

example : (0 : ℤ) ≤ 32 ∧ 65536 - 100 ≤ 65536 := by decide

/-- **C109, seeding again** on the same lattice gives the same generators as seeding for the first time, and so does seeding with freed memory on any lattice. -/
theorem C109_reseed (B : ℤ) (T vol seed rank seed' rank' : ℕ) (m : RngMem) (h : initDeviceRng B T vol seed rank none = some m) :
    initDeviceRng B T vol seed' rank' m = initDeviceRng B T vol seed' rank' none ∧
    ∀ vol', initDeviceRng B T vol' seed' rank' (freeDeviceRng m) = initDeviceRng B T vol' seed' rank' none := by
  refine ⟨?_, fun _ => rfl⟩
  unfold initDeviceRng at h ⊢
  by_cases hB : B < 0
  · rw [if_pos hB] at h
    rw [if_pos hB, if_pos hB, Option.some.inj h]
  · rw [if_neg hB] at h
    rw [if_neg hB, if_neg hB]
    simp only [List.length_replicate, le_refl, if_true, List.drop_replicate, Nat.sub_self, List.replicate_zero, List.append_nil, Option.some.injEq] at h
    subst h
    simp

/-- **C109 fails after a change of the lattice.** The number of generators is fixed by the lattice in use at the first call. After seeding with a (blocked)
lattice with fewer generators than the lattice used later, loops over that lattice read outside of the memory, and seeding again writes outside of it. -/
theorem C109_lattice_wrong (B : ℤ) (T vol vol' seed rank seed' : ℕ) (hB : 0 ≤ B) (hlt : rngCount B T vol < rngCount B T vol')
    (hloop : rngCount B T vol < vol') :
    ∃ m, initDeviceRng B T vol seed rank none = some m ∧ runRngLoop B T 0 vol' m = none ∧ initDeviceRng B T vol' seed' rank m = none := by
  have hT : 0 < T := by
    rcases Nat.eq_zero_or_pos T with rfl | h
    · simp [rngCount] at hlt
    · exact h
  refine ⟨some ((List.range (rngCount B T vol)).map fun x => some (rngInit seed rank (rngCount B T vol) x)), ?_, ?_, ?_⟩
  · unfold initDeviceRng
    rw [if_neg (by omega)]
    simp
  · unfold runRngLoop
    apply mapM_some_none _ _ (rngCount B T vol, rngCount B T vol)
    · rw [rngLoop_mem B T 0 vol' hT]
      refine ⟨Nat.zero_le _, hloop, ?_⟩
      rw [Nat.sub_zero]
      split_ifs with h
      · rw [Nat.mod_eq_of_lt]
        refine lt_of_lt_of_le hlt ?_
        unfold rngCount rngBlocks
        rw [Nat.mul_comm T]
        apply Nat.mul_le_mul_right
        dsimp only
        split_ifs with h2 <;> omega
      · rfl
    · simp
  · unfold initDeviceRng
    rw [if_neg (by omega)]
    simp
    omega

example : rngCount 32 256 4096 < rngCount 32 256 65536 ∧ rngCount 32 256 4096 < 65536 := by decide

/-- **C109, disabled generators**: a loop with random numbers over at least one site then reads through a null pointer. -/
theorem C109_disabled (B V : ℤ) (T vol seed rank b e : ℕ) (hB : B < 0) (hT : 0 < T) (hbe : b < e) :
    initDeviceRng B T vol seed rank none = some none ∧ runRngLoop (loopBlocks B V) T b e none = none := by
  constructor
  · unfold initDeviceRng
    rw [if_pos hB]
  · unfold runRngLoop
    apply mapM_some_none _ _ (_, b)
    · exact (rngLoop_mem _ T b e hT _ b).2 ⟨le_rfl, hbe, rfl⟩
    · rfl

/-! ## The numbers -/

/-- **C109, range.** The number is below `2 ^ 53`, so that its product with `2 ^ -53` is exact, at least 0 and less than 1. -/
theorem C109_range (u1 u2 : ℕ) (h1 : u1 < 2 ^ 32) (h2 : u2 < 2 ^ 32) :
    gpuRandomBits u1 u2 < 2 ^ 53 ∧ (0 : ℝ) ≤ gpuRandomBits u1 u2 * (1 / 2 ^ 53) ∧ (gpuRandomBits u1 u2 * (1 / 2 ^ 53) : ℝ) < 1 := by
  have h : gpuRandomBits u1 u2 < 2 ^ 53 := by
    unfold gpuRandomBits
    apply Nat.xor_lt_two_pow (by omega)
    rw [Nat.shiftLeft_eq]
    omega
  refine ⟨h, by positivity, ?_⟩
  have : (gpuRandomBits u1 u2 : ℝ) < 2 ^ 53 := by exact_mod_cast h
  rw [mul_one_div, div_lt_one (by positivity)]
  exact this

set_option linter.constructorNameAsVariable false in
/-- **C109, uniform.** Every number below `2 ^ 53` comes from exactly `2 ^ 11` of the pairs of 32-bit numbers: if the pairs are uniformly distributed
so is the result. -/
theorem C109_uniform (z : ℕ) (hz : z < 2 ^ 53) :
    ((Finset.range (2 ^ 32) ×ˢ Finset.range (2 ^ 32)).filter fun p => gpuRandomBits p.1 p.2 = z).card = 2 ^ 11 := by
  have hs : ∀ u < 2 ^ 32, (u <<< 21) % 2 ^ 64 = u <<< 21 := by
    intro u hu
    rw [Nat.shiftLeft_eq]
    omega
  have key : ∀ u1 u2 : ℕ, u2 < 2 ^ 32 → gpuRandomBits u1 u2 = z → u1 % 2 ^ 21 = z % 2 ^ 21 ∧ u2 = (z ^^^ u1) >>> 21 := by
    intro u1 u2 h2 h
    unfold gpuRandomBits at h
    rw [show 53 - 32 = 21 from rfl, hs u2 h2] at h
    constructor
    · apply Nat.eq_of_testBit_eq
      intro i
      rw [Nat.testBit_mod_two_pow, Nat.testBit_mod_two_pow, ← h, Nat.testBit_xor, Nat.testBit_shiftLeft]
      by_cases hi : i < 21
      · simp [hi, show ¬21 ≤ i by omega]
      · simp [hi]
    · rw [← h, Nat.xor_comm u1, Nat.xor_assoc, Nat.xor_self, Nat.xor_zero, Nat.shiftLeft_shiftRight]
  have hcard : (Finset.range (2 ^ 11)).card = 2 ^ 11 := Finset.card_range _
  rw [← hcard]
  apply Finset.card_nbij' (fun p => p.1 / 2 ^ 21) (fun h => (2 ^ 21 * h + z % 2 ^ 21, (z ^^^ (2 ^ 21 * h + z % 2 ^ 21)) >>> 21))
  · rintro ⟨u1, u2⟩ hp
    simp only [Finset.coe_filter, Finset.mem_product, Finset.mem_range, Set.mem_ofPred_eq] at hp
    simp only [Finset.coe_range, Set.mem_Iio]
    omega
  · intro h hh
    simp only [Finset.coe_range, Set.mem_Iio] at hh
    have hm : z % 2 ^ 21 < 2 ^ 21 := Nat.mod_lt _ (by positivity)
    have hu1 : 2 ^ 21 * h + z % 2 ^ 21 < 2 ^ 32 := by omega
    have hu2 : (z ^^^ (2 ^ 21 * h + z % 2 ^ 21)) >>> 21 < 2 ^ 32 := by
      rw [Nat.shiftRight_eq_div_pow]
      have : z ^^^ (2 ^ 21 * h + z % 2 ^ 21) < 2 ^ 53 := Nat.xor_lt_two_pow hz (by omega)
      omega
    simp only [Finset.coe_filter, Finset.mem_product, Finset.mem_range, Set.mem_ofPred_eq]
    refine ⟨⟨hu1, hu2⟩, ?_⟩
    unfold gpuRandomBits
    rw [show 53 - 32 = 21 from rfl, hs _ hu2]
    apply Nat.eq_of_testBit_eq
    intro i
    rw [Nat.testBit_xor, Nat.testBit_shiftLeft, Nat.testBit_shiftRight, Nat.testBit_xor]
    by_cases hi : i < 21
    · rw [Nat.testBit_two_pow_mul_add _ hm, if_pos hi, Nat.testBit_mod_two_pow]
      simp [hi, show ¬21 ≤ i by omega]
    · have h21 : 21 + (i - 21) = i := by omega
      rw [h21]
      simp [show 21 ≤ i by omega]
      cases z.testBit i <;> cases (2 ^ 21 * h + z % 2 ^ 21).testBit i <;> rfl
  · rintro ⟨u1, u2⟩ hp
    simp only [Finset.coe_filter, Finset.mem_product, Finset.mem_range, Set.mem_ofPred_eq] at hp
    obtain ⟨k1, k2⟩ := key u1 u2 hp.1.2 hp.2
    have e : 2 ^ 21 * (u1 / 2 ^ 21) + z % 2 ^ 21 = u1 := by
      rw [← k1]
      exact Nat.div_add_mod u1 (2 ^ 21)
    simp only [e, ← k2]
  · intro h hh
    have hm : z % 2 ^ 21 < 2 ^ 21 := Nat.mod_lt _ (by positivity)
    show (2 ^ 21 * h + z % 2 ^ 21) / 2 ^ 21 = h
    omega

end Hila
