import Verif.Model.Partitions
import Verif.Props.Seed
import Mathlib.Data.List.Nodup
import Mathlib.Data.List.Range
import Mathlib.Data.Nat.Digits.Defs
import Mathlib.Tactic.Linarith

/-!
# C100: partitions

The ranks are divided into blocks of equal size; each block is a run of its own, with the ranks 0, 1, …, a
directory of its own and random number generators different from those of all others.
-/

namespace Hila

/-- The quotient of a rank in the middle of the product. -/
theorem mul_div_block {number k rank : ℕ} (hn : 0 < number) : rank * number / (number * k) = rank / k := by
  rw [mul_comm rank number]
  exact Nat.mul_div_mul_left rank k hn

theorem myPartition_eq {number k rank : ℕ} (hn : 0 < number) (hr : rank < number * k)
    (hw : number * (number * k) ≤ 4294967296) : myPartition number (number * k) rank = rank / k := by
  unfold myPartition
  have h : rank * number < 4294967296 := by
    calc rank * number < number * k * number := Nat.mul_lt_mul_of_pos_right hr hn
      _ = number * (number * k) := by ring
      _ ≤ 4294967296 := hw
  rw [Nat.mod_eq_of_lt h, mul_div_block hn]

/-- The ranks of a block. -/
theorem block_members {number k p : ℕ} (hk : 0 < k) (hp : p < number) :
    (List.range (number * k)).filter (fun r => r / k = p) = List.range' (p * k) k := by
  apply List.Perm.eq_of_pairwise (le := (· < ·)) (fun a b _ _ h1 h2 => absurd h1 (Nat.lt_asymm h2))
  · exact (List.pairwise_lt_range).filter _
  · exact List.pairwise_lt_range'
  · rw [List.perm_ext_iff_of_nodup ((List.nodup_range).filter _) (List.nodup_range')]
    intro r
    simp only [List.mem_filter, List.mem_range, decide_eq_true_eq, List.mem_range'_1]
    constructor
    · rintro ⟨h1, rfl⟩
      have := Nat.div_add_mod r k
      have := Nat.mod_lt r hk
      rw [Nat.mul_comm] at *
      constructor
      · rw [Nat.mul_comm]; omega
      · rw [Nat.mul_comm]; omega
    · rintro ⟨h1, h2⟩
      have hlt : r < (p + 1) * k := by rw [Nat.add_mul, one_mul]; exact h2
      refine ⟨lt_of_lt_of_le hlt (Nat.mul_le_mul_right k hp), ?_⟩
      exact Nat.div_eq_of_lt_le h1 hlt

/-- **C100.** With `number` partitions of `k` ranks each, rank `r` of the run is rank `r % k` of partition
`r / k`, which has `k` ranks; in particular each pair of a partition and a rank in it occurs exactly once. -/
theorem C100_split (number k rank : ℕ) (hn : 0 < number) (hr : rank < number * k)
    (hw : number * (number * k) ≤ 4294967296) :
    afterSetup false number (number * k) rank = (rank / k, rank % k, k) := by
  have hk : 0 < k := by
    rcases Nat.eq_zero_or_pos k with rfl | h
    · simp at hr
    · exact h
  have hp : rank / k < number := by
    rw [Nat.div_lt_iff_lt_mul hk]; exact hr
  have hm : commMembers (myPartition number (number * k)) (number * k) rank = List.range' (rank / k * k) k := by
    rw [← block_members hk hp]
    unfold commMembers
    apply List.filter_congr
    intro r hr'
    rw [myPartition_eq hn (List.mem_range.1 hr') hw, myPartition_eq hn hr hw]
  have hidx : (List.range' (rank / k * k) k).idxOf rank = rank % k := by
    have hmod : rank % k < (List.range' (rank / k * k) k).length := by
      rw [List.length_range']; exact Nat.mod_lt _ hk
    have hget : (List.range' (rank / k * k) k)[rank % k] = rank := by
      rw [List.getElem_range', one_mul, Nat.div_add_mod']
    have h := List.Nodup.idxOf_getElem (xs := List.range' (rank / k * k) k) List.nodup_range' _ hmod
    rwa [hget] at h
  unfold afterSetup splitRank
  rw [hm, hidx, myPartition_eq hn hr hw, List.length_range']
  rfl

/-- **C100.** When the run is split, the number of ranks is divisible by the number of partitions, of which
there are at least two: the blocks of `C100_split` are all there. -/
theorem C100_even_blocks (arg : ℤ) (nodes number : ℕ) (h0 : arg < 4294967296)
    (h : setupPartitions (some arg) nodes = .split number) :
    (number : ℤ) = arg ∧ 2 ≤ number ∧ number ∣ nodes := by
  simp only [setupPartitions] at h
  split at h
  · cases h
  · rename_i hl
    have e : arg % 4294967296 = arg := Int.emod_eq_of_lt (by omega) h0
    rw [e] at h
    split at h
    · cases h
    · split at h
      · cases h
      · split at h
        · cases h
        · rename_i h1 h2 h3
          obtain rfl : arg.toNat = number := by injection h
          exact ⟨by omega, by omega, Nat.dvd_of_mod_eq_zero (by omega)⟩

/-- **C100.** A number which divides the number of ranks is accepted. -/
theorem C100_accepted (number k : ℕ) (h2 : 2 ≤ number) (hlt : number < 4294967296) :
    setupPartitions (some (number : ℤ)) (number * k) = .split number := by
  have e : (number : ℤ) % 4294967296 = number := Int.emod_eq_of_lt (by omega) (by omega)
  simp only [setupPartitions]
  rw [if_neg (by omega), e]
  simp only [Int.toNat_natCast]
  rw [if_neg (by omega), if_neg (by omega), if_neg (by simp)]

/-- **C100.** The program ends at once exactly if the number of partitions is not positive or does not divide the number of ranks; one
partition, or no flag, is the usual run. -/
theorem C100_rejected (arg : ℤ) (nodes : ℕ) (h0 : arg < 4294967296) :
    (setupPartitions (some arg) nodes = .ends ↔ arg ≤ 0 ∨ ¬arg ∣ (nodes : ℤ)) ∧
    (setupPartitions (some arg) nodes = .single ↔ arg = 1) ∧ setupPartitions none nodes = .single := by
  by_cases hl : arg ≤ 0
  · have e : setupPartitions (some arg) nodes = .ends := by
      simp only [setupPartitions]
      rw [if_pos hl]
    rw [e]
    exact ⟨⟨fun _ => Or.inl hl, fun _ => rfl⟩, ⟨fun h => (nomatch h), fun h => by omega⟩, rfl⟩
  · obtain ⟨m, rfl⟩ := Int.eq_ofNat_of_zero_le (show 0 ≤ arg by omega)
    have e : (m : ℤ) % 4294967296 = m := Int.emod_eq_of_lt (by omega) h0
    have es : setupPartitions (some (m : ℤ)) nodes = if m = 1 then .single else if nodes % m ≠ 0 then .ends else .split m := by
      simp only [setupPartitions]
      rw [if_neg hl, e, Int.toNat_natCast]
      by_cases h1 : m = 1
      · rw [if_pos h1, if_pos h1]
      · rw [if_neg h1, if_neg h1, if_neg (by omega)]
    rw [es, Int.natCast_dvd_natCast, Nat.dvd_iff_mod_eq_zero]
    by_cases h1 : m = 1
    · subst h1
      simp [Nat.mod_one]
      rfl
    · rw [if_neg h1]
      by_cases h2 : nodes % m = 0
      · rw [if_neg (not_not.2 h2)]
        refine ⟨⟨fun h => (nomatch h), fun h => ?_⟩, ⟨fun h => (nomatch h), fun h => by omega⟩, rfl⟩
        rcases h with h | h
        · exact absurd h hl
        · exact absurd h2 h
      · rw [if_pos h2]
        exact ⟨⟨fun _ => Or.inr h2, fun _ => rfl⟩, ⟨fun h => (nomatch h), fun h => by omega⟩, rfl⟩

/-- Six ranks in three partitions. -/
example : setupPartitions (some 3) 6 = .split 3 ∧
    (List.range 6).map (afterSetup false 3 6) =
      [(0, 0, 2), (0, 1, 2), (1, 0, 2), (1, 1, 2), (2, 0, 2), (2, 1, 2)] := by decide

/-- **C100.** Different partitions have different directories. -/
theorem C100_directories (dir : List Char) (p q : ℕ) (h : partDir dir p = partDir dir q) : p = q := by
  have h' : Nat.toDigits 10 p = Nat.toDigits 10 q := List.append_cancel_left h
  rw [← Nat.ofDigitChars_ten_toDigits (n := p), h', Nat.ofDigitChars_ten_toDigits]

/-- **C100.** With a common seed other than zero all ranks of all partitions have different generators. -/
theorem C100_seeds (number k : ℕ) (seed : BitVec 64) (h2 : 2 ≤ number) (hb : number * k ≤ 268435456)
    (hw : number * (number * k) ≤ 4294967296) (r r' : ℕ) (hr : r < number * k) (hr' : r' < number * k)
    (hne : r ≠ r') : partSeed number (number * k) r seed ≠ partSeed number (number * k) r' seed := by
  have hk : 0 < k := by
    rcases Nat.eq_zero_or_pos k with rfl | h
    · simp at hr
    · exact h
  unfold partSeed
  rw [C100_split number k r (by omega) hr hw, C100_split number k r' (by omega) hr' hw]
  apply C22_seeds_distinct k number seed (by omega)
  · rw [if_pos (by omega), Nat.mul_comm]; exact hb
  · exact Nat.mod_lt _ hk
  · exact Nat.mod_lt _ hk
  · exact (Nat.div_lt_iff_lt_mul hk).2 hr
  · exact (Nat.div_lt_iff_lt_mul hk).2 hr'
  · intro he
    injection he with e1 e2
    simp only at e1 e2
    apply hne
    rw [← Nat.div_add_mod r k, e1, e2, Nat.div_add_mod]

/-- The hypotheses hold for 1024 ranks in 16 partitions. -/
example : partSeed 16 1024 5 77#64 ≠ partSeed 16 1024 1000 77#64 :=
  C100_seeds 16 64 77#64 (by norm_num) (by norm_num) (by norm_num) 5 1000 (by norm_num) (by norm_num) (by norm_num)

/-! ### Where it fails -/

/-- **C100, disagreement.** A number of partitions of 2^32 or more is cut to 32 bits: 4294967296 divides by
zero, 4294967297 runs one lattice without a word, 4294967298 makes two partitions. -/
theorem C100_number_cut (nodes : ℕ) :
    setupPartitions (some 4294967296) nodes = .undef ∧
    setupPartitions (some 4294967297) nodes = .single ∧
    (nodes % 2 = 0 → setupPartitions (some 4294967298) nodes = .split 2) := by
  refine ⟨rfl, rfl, fun h => ?_⟩
  have : ((4294967298 : ℤ) % 4294967296).toNat = 2 := rfl
  simp only [setupPartitions]
  rw [if_neg (by norm_num), this, if_neg (by norm_num), if_neg (by norm_num), if_neg (by omega)]

/-- **C100, disagreement.** The product of the rank and the number of partitions wraps around: with 131072
ranks in 131072 partitions rank 32768 belongs to partition 0, as rank 0 does, and no rank belongs to
partition 32768. -/
theorem C100_product_wraps :
    setupPartitions (some 131072) 131072 = .split 131072 ∧
    myPartition 131072 131072 32768 = myPartition 131072 131072 0 ∧
    ∀ rank < 131072, myPartition 131072 131072 rank ≠ 32768 := by
  refine ⟨rfl, by norm_num [myPartition], ?_⟩
  intro rank _ h
  unfold myPartition at h
  have : rank * 131072 % 4294967296 < 4294967296 := Nat.mod_lt _ (by norm_num)
  omega

/-- **C100, disagreement.** With `-check` the layout is tested for a lattice on all ranks; in the run each
lattice has only those of its partition. -/
theorem C100_check_layout (number k : ℕ) (h2 : 2 ≤ number) (hk : 0 < k)
    (hw : number * (number * k) ≤ 4294967296) :
    (afterSetup true number (number * k) 0).2.2 = number * k ∧
    (afterSetup false number (number * k) 0).2.2 = k ∧ k < number * k := by
  refine ⟨rfl, ?_, by nlinarith⟩
  rw [C100_split number k 0 (by omega) (Nat.mul_pos (by omega) hk) hw]

/-- **C100, disagreement.** With the seed zero every partition takes its seed from the clock on its own. The
partition number and the rank are combined with it by operations which do not keep such seeds apart: two
partitions with one rank each, started two seconds apart, can get the same generator. -/
theorem C100_clock_collision :
    partSeed 2 2 0 (clockSeed 102 268435457) = partSeed 2 2 1 (clockSeed 100 0) ∧
    clockSeed 102 268435457 ≠ clockSeed 100 0 := by
  decide

end Hila
