import Mathlib.Data.Nat.Init

/-!
# Model of the seeding of the random number generators (plumbing/random.cpp) and of the message tags
(plumbing/com_mpi.cpp)
-/

namespace Hila

/-- A rank of a (possibly partitioned) run: `rank` = `hila::myrank()`, `part` =
`partitions.mylattice()`. -/
structure RankId where
  rank : ℕ
  part : ℕ
deriving DecidableEq

/-- The number `n` of random.cpp:48-50. The product is computed in `int` and assumed not to overflow. -/
def rankNumber (nodes parts : ℕ) (r : RankId) : ℕ :=
  if parts > 1 then r.rank + r.part * nodes else r.rank

/-- random.cpp:46-53 `shuffle_rng_seed` in 64-bit arithmetic. -/
def shuffleRngSeed (nodes parts : ℕ) (r : RankId) (seed : BitVec 64) : BitVec 64 :=
  let n := BitVec.ofNat 64 (rankNumber nodes parts r)
  (seed + n) ^^^ (n <<< 31)

/-- The seed given to the generator by `seed_random(seed)` for `seed ≠ 0` (random.cpp:85-151, 59-70,
CPU): with partitions the seed is first combined with the partition number (113-114). -/
def generatorSeed (nodes parts : ℕ) (r : RankId) (seed : BitVec 64) : BitVec 64 :=
  shuffleRngSeed nodes parts r
    (if parts > 1 then seed ^^^ (BitVec.ofNat 64 r.part <<< 28) else seed)

/-- com_mpi.cpp:317-323 `get_next_msg_tag`: the new value of the static variable. -/
def nextTag (tag : ℕ) : ℕ := if tag + 1 > 500 then 100 else tag + 1

/-- One call of `start_communication` (field_comm.h:484-580) on a rank, as far as the tag is concerned:
the tag is drawn first; `active` says whether the rank then posts a message with it. -/
def startComm (tag : ℕ) (active : Bool) : ℕ × Option ℕ :=
  (nextTag tag, if active then some (nextTag tag) else none)

/-- The tags used by a rank in a sequence of calls. -/
def commTags : ℕ → List Bool → List (Option ℕ)
  | _, [] => []
  | tag, a :: as => (startComm tag a).2 :: commTags (startComm tag a).1 as

/-- All tags of a rank; the static variable starts with `MSG_TAG_MIN`. -/
def rankTags (active : List Bool) : List (Option ℕ) := commTags 100 active

end Hila
