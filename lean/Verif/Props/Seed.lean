import Verif.Model.Seed
import Mathlib.Data.Nat.ModEq
import Mathlib.Data.List.Basic

/-!
# C22: different ranks get different random seeds; C40: message tags stay in step
-/

namespace Hila

theorem toNat_mod_two_pow (x y : BitVec 64) (k : ℕ)
    (h : ∀ i, i < k → x.getLsbD i = y.getLsbD i) : x.toNat % 2 ^ k = y.toNat % 2 ^ k := by
  apply Nat.eq_of_testBit_eq
  intro i
  rw [Nat.testBit_mod_two_pow, Nat.testBit_mod_two_pow]
  by_cases hi : i < k
  · simp only [hi, decide_true, Bool.true_and]
    exact h i hi
  · simp [hi]

/-- The low bits of the shuffled seed are those of the sum. -/
theorem low_bits (x n : BitVec 64) (k s : ℕ) (hs : k ≤ s) :
    (x ^^^ (n <<< s)).toNat % 2 ^ k = x.toNat % 2 ^ k := by
  apply toNat_mod_two_pow
  intro i hi
  rw [BitVec.getLsbD_xor, BitVec.getLsbD_shiftLeft]
  have : i < s := by omega
  simp [this]

theorem sum_low_bits (x n : BitVec 64) (k : ℕ) (hk : k < 64) :
    (x + n).toNat % 2 ^ k = (x.toNat + n.toNat) % 2 ^ k := by
  rw [BitVec.toNat_add, Nat.mod_mod_of_dvd _ (Nat.pow_dvd_pow 2 (by omega))]

theorem rankNumber_inj {nodes parts : ℕ} (hparts : 0 < parts) {r r' : RankId} (h1 : r.rank < nodes)
    (h2 : r'.rank < nodes) (h3 : r.part < parts) (h4 : r'.part < parts)
    (h : rankNumber nodes parts r = rankNumber nodes parts r') : r = r' := by
  obtain ⟨a, p⟩ := r
  obtain ⟨b, q⟩ := r'
  unfold rankNumber at h
  dsimp only at *
  split at h
  · have hp : p = q := by
      have e1 : (a + p * nodes) / nodes = p := by
        rw [Nat.add_mul_div_right _ _ (by omega), Nat.div_eq_of_lt h1, Nat.zero_add]
      have e2 : (b + q * nodes) / nodes = q := by
        rw [Nat.add_mul_div_right _ _ (by omega), Nat.div_eq_of_lt h2, Nat.zero_add]
      rw [← e1, ← e2, h]
    subst hp
    have : a = b := by omega
    rw [this]
  · have hp : p = q := by omega
    rw [h, hp]

/-- **C22.** With a common seed, different ranks, also of different partitions, get different generator
seeds, as long as the total number of ranks is at most 2^31 (2^28 for partitioned runs). -/
theorem C22_seeds_distinct (nodes parts : ℕ) (seed : BitVec 64) (hparts : 0 < parts)
    (hbound : nodes * parts ≤ if parts > 1 then 268435456 else 2147483648) (r r' : RankId)
    (h1 : r.rank < nodes) (h2 : r'.rank < nodes) (h3 : r.part < parts) (h4 : r'.part < parts)
    (hne : r ≠ r') : generatorSeed nodes parts r seed ≠ generatorSeed nodes parts r' seed := by
  intro he
  apply hne
  apply rankNumber_inj hparts h1 h2 h3 h4
  have hb : ∀ q : RankId, q.rank < nodes → q.part < parts → rankNumber nodes parts q < nodes * parts := by
    intro q hq1 hq2
    unfold rankNumber
    split
    · calc q.rank + q.part * nodes < nodes + q.part * nodes := by omega
        _ = nodes * (q.part + 1) := by rw [Nat.mul_add, Nat.mul_comm, Nat.mul_one, Nat.add_comm]
        _ ≤ nodes * parts := Nat.mul_le_mul_left _ hq2
    · calc q.rank < nodes := hq1
        _ = nodes * 1 := (Nat.mul_one _).symm
        _ ≤ nodes * parts := Nat.mul_le_mul_left _ hparts
  have hr := hb r h1 h3
  have hr' := hb r' h2 h4
  -- the low `k` bits of the generator seed
  have key : ∀ k, k ≤ 31 → (parts > 1 → k ≤ 28) → ∀ q : RankId, rankNumber nodes parts q < 2 ^ k →
      (generatorSeed nodes parts q seed).toNat % 2 ^ k =
        (seed.toNat % 2 ^ k + rankNumber nodes parts q) % 2 ^ k := by
    intro k hk hk2 q hq
    have hq64 : rankNumber nodes parts q < 2 ^ 64 :=
      Nat.lt_of_lt_of_le hq (Nat.pow_le_pow_right (by decide) (by omega))
    unfold generatorSeed shuffleRngSeed
    dsimp only
    rw [low_bits _ _ k 31 hk, sum_low_bits _ _ k (by omega), BitVec.toNat_ofNat,
      Nat.mod_eq_of_lt hq64]
    split
    · rename_i hp
      rw [Nat.add_mod, low_bits _ _ k 28 (hk2 hp), Nat.mod_eq_of_lt hq]
    · rw [Nat.add_mod, Nat.mod_eq_of_lt hq]
  have fin : ∀ k, k ≤ 31 → (parts > 1 → k ≤ 28) → rankNumber nodes parts r < 2 ^ k →
      rankNumber nodes parts r' < 2 ^ k → rankNumber nodes parts r = rankNumber nodes parts r' := by
    intro k hk hk2 a b
    have e := congrArg (fun x : BitVec 64 => x.toNat % 2 ^ k) he
    rw [key k hk hk2 r a, key k hk hk2 r' b] at e
    have e2 : rankNumber nodes parts r ≡ rankNumber nodes parts r' [MOD 2 ^ k] :=
      Nat.ModEq.add_left_cancel' _ e
    exact Nat.ModEq.eq_of_lt_of_lt e2 a b
  by_cases hp : parts > 1
  · rw [if_pos hp] at hbound
    have h28 : (2 : ℕ) ^ 28 = 268435456 := by decide
    exact fin 28 (by omega) (fun _ => by omega) (by omega) (by omega)
  · rw [if_neg hp] at hbound
    have h31 : (2 : ℕ) ^ 31 = 2147483648 := by decide
    exact fin 31 (by omega) (fun h => absurd h hp) (by omega) (by omega)

/-- For a single rank the seed is unchanged (documented in random.cpp). -/
theorem C22_single_rank_unchanged (nodes : ℕ) (seed : BitVec 64) :
    generatorSeed nodes 1 ⟨0, 0⟩ seed = seed := by
  simp [generatorSeed, shuffleRngSeed, rankNumber]

/-- Two partitions of three ranks. -/
example : (List.map (fun q : ℕ × ℕ => (generatorSeed 3 2 ⟨q.1, q.2⟩ 1234#64).toNat)
    [(0, 0), (1, 0), (2, 0), (0, 1), (1, 1), (2, 1)]).Nodup := by decide

/-! ### Tags -/

/-- The tag drawn by the `k`-th call (counted from 0). -/
def tagOf (k : ℕ) : ℕ := 100 + (k + 1) % 401

theorem nextTag_tagOf (k : ℕ) : nextTag (100 + k % 401) = tagOf k := by
  unfold nextTag tagOf
  have h := Nat.mod_lt k (show 0 < 401 by decide)
  split
  · have hk : k % 401 = 400 := by omega
    have : (k + 1) % 401 = 0 := by omega
    rw [this]
  · have : (k + 1) % 401 = k % 401 + 1 := by omega
    rw [this]; omega

theorem commTags_get (active : List Bool) : ∀ k0 k, k < active.length →
    (commTags (100 + k0 % 401) active)[k]? =
      some (if active.getD k false then some (tagOf (k0 + k)) else none) := by
  induction active with
  | nil => intro _ k hk; simp at hk
  | cons a as ih =>
    intro k0 k hk
    unfold commTags startComm
    dsimp only
    rw [nextTag_tagOf]
    cases k with
    | zero => simp
    | succ k =>
      rw [List.getElem?_cons_succ]
      have h1 := ih (k0 + 1) k (by simpa using hk)
      have h2 : k0 + 1 + k = k0 + (k + 1) := by omega
      rw [h2] at h1
      unfold tagOf at *
      rw [h1]
      simp

theorem rankTags_get (active : List Bool) (k : ℕ) (hk : k < active.length) :
    (rankTags active)[k]? = some (if active.getD k false then some (tagOf k) else none) := by
  have h := commTags_get active 0 k hk
  rw [Nat.zero_add] at h
  exact h

/-- **C40 (in step, in range).** Ranks that perform the same number of communications use the same tag
in the `k`-th one, if they communicate at all in it, whatever each of them skips; all tags are in the
reserved range 100..500. -/
theorem C40_tags_in_step (active active' : List Bool) (k t t' : ℕ)
    (h : (rankTags active)[k]? = some (some t)) (h' : (rankTags active')[k]? = some (some t')) :
    t = t' ∧ 100 ≤ t ∧ t ≤ 500 := by
  have hlen : ∀ (as : List Bool) (tag : ℕ), (commTags tag as).length = as.length := by
    intro as
    induction as with
    | nil => intro _; rfl
    | cons a as ih => intro tag; simp [commTags, ih]
  have get : ∀ (as : List Bool) (u : ℕ), (rankTags as)[k]? = some (some u) → u = tagOf k := by
    intro as u hu
    have hk : k < as.length := by
      have := (List.getElem?_eq_some_iff.1 hu).1
      unfold rankTags at this
      rw [hlen] at this; exact this
    rw [rankTags_get as k hk] at hu
    split at hu
    · simp only [Option.some.injEq] at hu
      exact hu.symm
    · simp at hu
  rw [get active t h, get active' t' h']
  refine ⟨rfl, ?_, ?_⟩ <;> unfold tagOf
  · omega
  · have := Nat.mod_lt (k + 1) (show 0 < 401 by decide)
    omega

/-- **C40 (messages do not get mixed up).** Two communications of which fewer than 401 apart are
in flight use different tags: a message of communication `k` and a receive of communication `k'` have
equal tags only if `k = k'`. -/
theorem C40_tags_distinct (active active' : List Bool) (k k' t : ℕ)
    (h : (rankTags active)[k]? = some (some t)) (h' : (rankTags active')[k']? = some (some t))
    (hwin : k < k' + 401) (hwin' : k' < k + 401) : k = k' := by
  have hlen : ∀ (as : List Bool) (tag : ℕ), (commTags tag as).length = as.length := by
    intro as
    induction as with
    | nil => intro _; rfl
    | cons a as ih => intro tag; simp [commTags, ih]
  have get : ∀ (as : List Bool) (m u : ℕ), (rankTags as)[m]? = some (some u) → u = tagOf m := by
    intro as m u hu
    have hk : m < as.length := by
      have := (List.getElem?_eq_some_iff.1 hu).1
      unfold rankTags at this
      rw [hlen] at this; exact this
    rw [rankTags_get as m hk] at hu
    split at hu
    · simp only [Option.some.injEq] at hu
      exact hu.symm
    · simp at hu
  have e : tagOf k = tagOf k' := by rw [← get active k t h, ← get active' k' t h']
  unfold tagOf at e
  omega

/-- The window is sharp: communication `k + 401` uses the tag of communication `k` again. -/
theorem C40_tags_repeat (k : ℕ) : ∃ active : List Bool, ∃ t, (rankTags active)[k]? = some (some t) ∧
    (rankTags active)[k + 401]? = some (some t) := by
  refine ⟨List.replicate (k + 402) true, tagOf k, ?_, ?_⟩
  · rw [rankTags_get _ k (by rw [List.length_replicate]; omega)]
    have : (List.replicate (k + 402) true).getD k false = true := by
      rw [List.getD_eq_getElem?_getD, List.getElem?_replicate_of_lt (by omega)]; rfl
    rw [this]; rfl
  · rw [rankTags_get _ (k + 401) (by rw [List.length_replicate]; omega)]
    have : (List.replicate (k + 402) true).getD (k + 401) false = true := by
      rw [List.getD_eq_getElem?_getD, List.getElem?_replicate_of_lt (by omega)]; rfl
    rw [this]
    have : tagOf (k + 401) = tagOf k := by unfold tagOf; omega
    rw [this]; rfl

/-- One rank skips the second communication, another the first. -/
example : rankTags [true, false, true] = [some 101, none, some 103] ∧
    rankTags [false, true, true] = [none, some 102, some 103] := by decide

end Hila
