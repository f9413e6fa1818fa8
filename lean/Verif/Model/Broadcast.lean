import Verif.Model.Config
import Mathlib.Algebra.BigOperators.Fin

/-!
# Broadcasts, messages and sums over the ranks

Models the functions of `/repo/libraries/plumbing/com_mpi.h` and `com_mpi.cpp` a program uses to pass data between ranks: `hila::broadcast` of vectors, strings and
lists of strings, `send_to`, `receive_from`, `reduce_node_sum` and `reduce_node_product`.

Memory is a list of bytes (natural numbers). MPI is given by its standard: `MPI_Bcast` copies the given number of bytes, messages between two ranks with
the same tag arrive in order. All ranks call the function (as documented), with the same `rank` argument. `toInt32` is the conversion of a
`size_t` to the `int` MPI takes as number of bytes.
-/

namespace Hila

/-- `MPI_Bcast` of `count` bytes: `none` (error or undefined behaviour) if the number is negative or a buffer is too short. -/
def mpiBcast {R : ℕ} (count : ℤ) (root : Fin R) (bufs : Fin R → List ℕ) : Option (Fin R → List ℕ) :=
  if 0 ≤ count ∧ ∀ r, count ≤ (bufs r).length then some fun r => (bufs root).take count.toNat ++ (bufs r).drop count.toNat else none

/-- `resize(n, x)` of vectors and strings. -/
def resizeBytes {α : Type} (n : ℕ) (x : α) (l : List α) : List α := l.take n ++ List.replicate (n - l.length) x

/-- `broadcast(std::vector<T> &, rank)` (com_mpi.h:191-214): `v r` are the bytes of the vector of the rank `r`, `s` is `sizeof(T)`. -/
def broadcastVector {R : ℕ} (s : ℕ) (root : Fin R) (v : Fin R → List ℕ) : Option (Fin R → List ℕ) :=
  let size := (v root).length / s
  let w : Fin R → List ℕ := fun r => if r ≠ root then resizeBytes (s * size) 0 (v r) else v r
  if 0 < size then mpiBcast (toInt32 (s * size : ℕ)) root w else some w

/-- `broadcast(std::string &, rank)` (com_mpi.cpp:232-250); `none` also if the string is resized to a negative number. 32 is the space. -/
def broadcastString {R : ℕ} (root : Fin R) (v : Fin R → List ℕ) : Option (Fin R → List ℕ) :=
  let size := toInt32 ((v root).length : ℕ)
  if size < 0 then none
  else mpiBcast size root fun r => if r ≠ root then resizeBytes size.toNat 32 (v r) else v r

/-- The loop over the strings in `broadcast(std::vector<std::string> &, rank)` (com_mpi.cpp:262-264), string number `i` of `n`. -/
def broadcastStringLoop {R : ℕ} (root : Fin R) : ℕ → (Fin R → ℕ → List ℕ) → Option (Fin R → ℕ → List ℕ)
  | 0, v => some v
  | i + 1, v => (broadcastStringLoop root i v).bind fun v' => (broadcastString root fun r => v' r i).map fun x r j => if j = i then x r else v' r j

/-- `broadcast(std::vector<std::string> &, rank)` (com_mpi.cpp:252-266). -/
def broadcastStrings {R : ℕ} (root : Fin R) (v : Fin R → List (List ℕ)) : Option (Fin R → List (List ℕ)) :=
  let size := toInt32 ((v root).length : ℕ)
  if size < 0 then none
  else
    let n := size.toNat
    let w : Fin R → List (List ℕ) := fun r => resizeBytes n [] (v r)
    (broadcastStringLoop root n fun r i => (w r).getD i []).map fun x r => (List.range n).map (x r)

/-- The messages between two ranks: all have the tag of the sender. -/
inductive RankMsg where
  | size (n : ℕ)
  | bytes (l : List ℕ)
deriving DecidableEq

/-- `send_to(rank, vector)` (com_mpi.h:307-319): what is added to the messages; `none` if the number of bytes is negative. -/
def sendVector (s : ℕ) (data : List ℕ) (ch : List RankMsg) : Option (List RankMsg) :=
  let n := data.length / s
  if 0 < n then
    let count := toInt32 (s * n : ℕ)
    if count < 0 then none else some (ch ++ [.size n, .bytes (data.take count.toNat)])
  else some (ch ++ [.size n])

/-- `receive_from(rank, vector)` (com_mpi.h:321-336): the new contents of the vector with the old contents `old`, and the remaining messages. `none` for an error
(negative number of bytes, message longer than the number), for a message of the other kind, or if the receiver waits for ever. -/
def receiveVector (s : ℕ) (old : List ℕ) : List RankMsg → Option (List ℕ × List RankMsg)
  | .size n :: ch =>
    let data := resizeBytes (s * n) 0 old
    if 0 < n then
      let count := toInt32 (s * n : ℕ)
      match ch with
      | .bytes l :: ch' => if count < 0 ∨ count < l.length then none else some (l ++ data.drop l.length, ch')
      | _ => none
    else some (data, ch)
  | _ => none

/-- `reduce_node_sum(value, send_count, allreduce)` (com_mpi.h:340-371) for elements of `w` numbers; `v r i` is the number `i` of the array of the rank `r`.
`recv_data` is zero before. -/
def reduceNodeSum {R : ℕ} {K : Type} [CommRing K] (w n : ℕ) (all : Bool) (v : Fin R → ℕ → K) : Fin R → ℕ → K :=
  let count := n * w
  let recv : ℕ → K := fun i => if i < count then ∑ r, v r i else 0
  fun r i => if (all = true ∨ r.val = 0) ∧ i < n * w then recv i else v r i

/-- `reduce_node_product(value, send_count, allreduce)` (com_mpi.h:391-419): the number given to MPI is `send_count`. -/
def reduceNodeProduct {R : ℕ} {K : Type} [CommRing K] (w n : ℕ) (all : Bool) (v : Fin R → ℕ → K) : Fin R → ℕ → K :=
  let count := n
  let recv : ℕ → K := fun i => if i < count then ∏ r, v r i else 0
  fun r i => if (all = true ∨ r.val = 0) ∧ i < n * w then recv i else v r i

end Hila
