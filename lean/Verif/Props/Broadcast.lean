import Verif.Model.Broadcast
import Mathlib.Algebra.BigOperators.Fin
import Mathlib.Data.List.Basic
import Mathlib.Data.List.GetD
import Mathlib.Tactic.Ring

/-!
# C112: data passed between ranks

Property theorems about `Model/Broadcast`.
-/

namespace Hila

theorem toInt32_nat (n : ℕ) (h : n < 2 ^ 31) : toInt32 (n : ℕ) = n := by
  unfold toInt32
  rw [Int.bmod_def]
  split_ifs <;> omega

theorem resizeBytes_length {α : Type} (n : ℕ) (x : α) (l : List α) : (resizeBytes n x l).length = n := by
  unfold resizeBytes
  rw [List.length_append, List.length_take, List.length_replicate]
  omega

theorem mpiBcast_all {R : ℕ} (root : Fin R) (bufs : Fin R → List ℕ) (n : ℕ) (h : ∀ r, (bufs r).length = n) :
    mpiBcast n root bufs = some fun _ => bufs root := by
  unfold mpiBcast
  rw [if_pos ⟨by omega, fun r => by rw [h r]⟩]
  congr 1
  funext r
  rw [Int.toNat_natCast, List.take_of_length_le (by rw [h root]), List.drop_eq_nil_of_le (by rw [h r]), List.append_nil]

/-- **C112, broadcast of vectors (part of the property).** With less than `2 ^ 31` bytes every rank gets the vector of the sender, whatever it had before.
*Missing*: longer vectors, see `C112_vector_wrong`. -/
theorem C112_vector_partial {R : ℕ} (s m : ℕ) (root : Fin R) (v : Fin R → List ℕ) (hs : 0 < s) (hm : (v root).length = s * m)
    (hlen : (v root).length < 2 ^ 31) : broadcastVector s root v = some fun _ => v root := by
  unfold broadcastVector
  have hd : (v root).length / s = m := by
    rw [hm, Nat.mul_div_cancel_left _ hs]
  dsimp only
  rw [hd]
  have hw : ∀ r, (if r ≠ root then resizeBytes (s * m) 0 (v r) else v r).length = s * m := by
    intro r
    split_ifs with h
    · exact resizeBytes_length _ _ _
    · rw [not_not.1 h]
      exact hm
  by_cases h0 : 0 < m
  · rw [if_pos h0, toInt32_nat _ (by omega), mpiBcast_all root _ _ hw]
    simp
  · rw [if_neg h0]
    congr 1
    funext r
    have e0 : s * m = 0 := by
      rw [show m = 0 by omega, Nat.mul_zero]
    have h1 := List.eq_nil_of_length_eq_zero ((hw r).trans e0)
    rw [h1, List.eq_nil_of_length_eq_zero (hm.trans e0)]

example : broadcastVector 2 (1 : Fin 3) (fun r => if r = 1 then [1, 2, 3, 4] else if r = 0 then [9, 9, 9, 9, 9, 9] else []) =
    some fun _ => [1, 2, 3, 4] := C112_vector_partial 2 2 1 _ (by decide) rfl (by decide)

/-- **C112 fails for long vectors.** With `2 ^ 31` to `2 ^ 32 - 1` bytes the number given to MPI is negative: an error.
With `2 ^ 32 + c` bytes, `c < 2 ^ 31`, only the first `c` bytes are sent, without an error: the rest of a vector that was empty on the other ranks is zero there. -/
theorem C112_vector_wrong {R : ℕ} (s m c : ℕ) (root r : Fin R) (v : Fin R → List ℕ) (hs : 0 < s) (hm : (v root).length = s * m) (hr : r ≠ root) :
    (2 ^ 31 ≤ s * m → s * m < 2 ^ 32 → broadcastVector s root v = none) ∧
    (s * m = 2 ^ 32 + c → c < 2 ^ 31 → v r = [] → ∃ x, broadcastVector s root v = some x ∧
      x r = (v root).take c ++ List.replicate (2 ^ 32) 0) := by
  have hd : (v root).length / s = m := by
    rw [hm, Nat.mul_div_cancel_left _ hs]
  have hw : ∀ r, (if r ≠ root then resizeBytes (s * m) 0 (v r) else v r).length = s * m := by
    intro r
    split_ifs with h
    · exact resizeBytes_length _ _ _
    · rw [not_not.1 h]
      exact hm
  have hpos : 0 < s * m → 0 < m := fun h => Nat.pos_of_ne_zero fun h0 => by simp [h0] at h
  constructor
  · intro h1 h2
    unfold broadcastVector
    dsimp only
    rw [hd, if_pos (hpos (by omega))]
    unfold mpiBcast
    rw [if_neg]
    rintro ⟨h3, -⟩
    unfold toInt32 at h3
    rw [Int.bmod_def] at h3
    split_ifs at h3 <;> omega
  · intro h1 h2 hv
    have hc : toInt32 (s * m : ℕ) = (c : ℤ) := by
      unfold toInt32
      rw [Int.bmod_def, h1]
      split_ifs <;> omega
    unfold broadcastVector
    dsimp only
    rw [hd, if_pos (hpos (by omega)), hc]
    unfold mpiBcast
    rw [if_pos ⟨by omega, fun r => by rw [hw r]; omega⟩]
    refine ⟨_, rfl, ?_⟩
    dsimp only
    rw [if_neg (not_not.2 rfl), if_pos hr, hv]
    unfold resizeBytes
    rw [Int.toNat_natCast, List.take_nil, List.nil_append, List.drop_replicate]
    have e : s * m - ([] : List ℕ).length - c = 2 ^ 32 := by
      rw [List.length_nil]
      omega
    rw [e]

example : 8 * 2 ^ 29 = 2 ^ 32 + 0 := by decide

/-- **C112, strings** of less than `2 ^ 31` characters. -/
theorem C112_string {R : ℕ} (root : Fin R) (v : Fin R → List ℕ) (hlen : (v root).length < 2 ^ 31) :
    broadcastString root v = some fun _ => v root := by
  unfold broadcastString
  dsimp only
  rw [toInt32_nat _ hlen, if_neg (by omega), mpiBcast_all root _ (v root).length]
  · simp
  · intro r
    split_ifs with h
    · rw [resizeBytes_length, Int.toNat_natCast]
    · rw [not_not.1 h]

theorem broadcastStringLoop_eq {R : ℕ} (root : Fin R) (v : Fin R → ℕ → List ℕ) (hv : ∀ i, (v root i).length < 2 ^ 31) (n : ℕ) :
    broadcastStringLoop root n v = some fun r j => if j < n then v root j else v r j := by
  induction n with
  | zero => rfl
  | succ n ih =>
    rw [broadcastStringLoop, ih, Option.bind_some, C112_string root _ (by simpa using hv n), Option.map_some]
    congr 1
    funext r j
    dsimp only
    rw [if_neg (lt_irrefl n)]
    by_cases h : j = n
    · rw [if_pos h, h, if_pos (by omega)]
    · rw [if_neg h]
      by_cases h2 : j < n
      · rw [if_pos h2, if_pos (by omega)]
      · rw [if_neg h2, if_neg (by omega)]

/-- **C112, lists of strings**: every rank gets the list of the sender, also if it had a longer or shorter list before. -/
theorem C112_strings {R : ℕ} (root : Fin R) (v : Fin R → List (List ℕ)) (hn : (v root).length < 2 ^ 31) (hlen : ∀ t ∈ v root, t.length < 2 ^ 31) :
    broadcastStrings root v = some fun _ => v root := by
  unfold broadcastStrings
  dsimp only
  rw [toInt32_nat _ hn, if_neg (by omega), Int.toNat_natCast]
  have hroot : resizeBytes (v root).length [] (v root) = v root := by
    unfold resizeBytes
    rw [List.take_length, Nat.sub_self, List.replicate_zero, List.append_nil]
  rw [broadcastStringLoop_eq]
  · rw [Option.map_some]
    congr 1
    funext r
    apply List.ext_getElem
    · simp
    · intro i h1 h2
      simp only [List.getElem_map, List.getElem_range]
      rw [if_pos h2, hroot, List.getD_eq_getElem _ _ h2]
  · intro i
    rw [hroot]
    by_cases h : i < (v root).length
    · rw [List.getD_eq_getElem _ _ h]
      exact hlen _ (List.getElem_mem h)
    · rw [List.getD_eq_default _ _ (by omega)]
      decide

example : broadcastStrings (0 : Fin 2) (fun r => if r = 0 then [[65, 66], []] else [[67], [68], [69]]) = some fun _ => [[65, 66], []] :=
  C112_strings 0 _ (by decide) (by decide)

/-- Sending vectors one after the other. -/
def sendAll (s : ℕ) : List (List ℕ) → List RankMsg → Option (List RankMsg)
  | [], ch => some ch
  | d :: ds, ch => (sendVector s d ch).bind (sendAll s ds)

/-- Receiving vectors one after the other, into vectors with the contents `olds`. -/
def receiveAll (s : ℕ) : List (List ℕ) → List RankMsg → Option (List (List ℕ) × List RankMsg)
  | [], ch => some ([], ch)
  | o :: os, ch => (receiveVector s o ch).bind fun p => (receiveAll s os p.2).map fun q => (p.1 :: q.1, q.2)

/-- What one `send_to` adds to the messages. -/
def vectorMsgs (s : ℕ) (d : List ℕ) : List RankMsg := if 0 < d.length / s then [.size (d.length / s), .bytes d] else [.size (d.length / s)]

theorem sendVector_eq (s : ℕ) (d : List ℕ) (ch : List RankMsg) (hd : s ∣ d.length) (hl : d.length < 2 ^ 31) :
    sendVector s d ch = some (ch ++ vectorMsgs s d) := by
  have hm : s * (d.length / s) = d.length := Nat.mul_div_cancel' hd
  unfold sendVector vectorMsgs
  dsimp only
  rw [hm, toInt32_nat _ hl]
  split_ifs with h1 h2
  · omega
  · rw [Int.toNat_natCast, List.take_length]
  · rfl

theorem receiveVector_eq (s : ℕ) (d old : List ℕ) (ch : List RankMsg) (hd : s ∣ d.length) (hl : d.length < 2 ^ 31) :
    receiveVector s old (vectorMsgs s d ++ ch) = some (d, ch) := by
  have hm : s * (d.length / s) = d.length := Nat.mul_div_cancel' hd
  unfold vectorMsgs
  by_cases h : 0 < d.length / s
  · rw [if_pos h, List.cons_append, List.cons_append, List.nil_append, receiveVector]
    dsimp only
    rw [if_pos h, hm, toInt32_nat _ hl, if_neg (by omega), List.drop_eq_nil_of_le (by rw [resizeBytes_length]), List.append_nil]
  · rw [if_neg h, List.cons_append, List.nil_append, receiveVector]
    dsimp only
    rw [if_neg h, hm]
    have h0 : d.length = 0 := by
      rw [← hm, Nat.eq_zero_of_not_pos h, Nat.mul_zero]
    rw [List.eq_nil_of_length_eq_zero h0]
    have := List.eq_nil_of_length_eq_zero (resizeBytes_length 0 0 old)
    simp [this]

/-- **C112, messages (part of the property).** Any number of vectors (also empty ones), each shorter than `2 ^ 31` bytes, sent from one rank
to another one, are received in order and complete, whatever the receiving vectors contained; no message is left. *Missing*: longer vectors, see `C112_send_wrong`. -/
theorem C112_messages_partial (s : ℕ) (ds olds : List (List ℕ)) (hlen : ds.length = olds.length)
    (hd : ∀ d ∈ ds, s ∣ d.length ∧ d.length < 2 ^ 31) : ∃ ch, sendAll s ds [] = some ch ∧ receiveAll s olds ch = some (ds, []) := by
  have hsend : ∀ (ds : List (List ℕ)), (∀ d ∈ ds, s ∣ d.length ∧ d.length < 2 ^ 31) →
      ∀ ch, sendAll s ds ch = some (ch ++ ds.flatMap (vectorMsgs s)) := by
    intro ds
    induction ds with
    | nil => intro _ ch; simp [sendAll]
    | cons d ds ih =>
      intro h ch
      have h1 := h d (List.mem_cons_self ..)
      rw [sendAll, sendVector_eq s d ch h1.1 h1.2, Option.bind_some, ih fun e he => h e (List.mem_cons_of_mem _ he)]
      simp
  refine ⟨_, hsend ds hd [], ?_⟩
  rw [List.nil_append]
  induction ds generalizing olds with
  | nil =>
    rcases olds with _ | ⟨o, os⟩
    · rfl
    · simp at hlen
  | cons d ds ih =>
    rcases olds with _ | ⟨o, os⟩
    · simp at hlen
    · have h1 := hd d (List.mem_cons_self ..)
      rw [receiveAll, List.flatMap_cons, receiveVector_eq s d o _ h1.1 h1.2, Option.bind_some,
        ih os (by simpa using hlen) fun e he => hd e (List.mem_cons_of_mem _ he), Option.map_some]

example : ∃ ch, sendAll 2 [[1, 2, 3, 4], [], [5, 6]] [] = some ch ∧ receiveAll 2 [[], [9, 9], [7, 7, 7, 7]] ch = some ([[1, 2, 3, 4], [], [5, 6]], []) :=
  C112_messages_partial 2 _ _ rfl (by decide)

/-- **C112 fails for long messages**: a vector of `2 ^ 32 + c` bytes, `c < 2 ^ 31`, received into an empty one, has the first `c` bytes
and zeros, without an error. -/
theorem C112_send_wrong (s m c : ℕ) (d : List ℕ) (hs : 0 < s) (hm : d.length = s * m) (h1 : s * m = 2 ^ 32 + c) (h2 : c < 2 ^ 31) :
    ∃ ch, sendVector s d [] = some ch ∧ receiveVector s [] ch = some (d.take c ++ List.replicate (2 ^ 32) 0, []) := by
  have hc : toInt32 (s * m : ℕ) = (c : ℤ) := by
    unfold toInt32
    rw [Int.bmod_def, h1]
    split_ifs <;> omega
  have hd : d.length / s = m := by
    rw [hm, Nat.mul_div_cancel_left _ hs]
  have hpos : 0 < m := Nat.pos_of_ne_zero fun h0 => by
    rw [h0, Nat.mul_zero] at h1
    omega
  have hlen : (d.take c).length = c := by
    rw [List.length_take]
    omega
  refine ⟨[.size m, .bytes (d.take c)], ?_, ?_⟩
  · unfold sendVector
    dsimp only
    rw [hd, if_pos hpos, hc, if_neg (by omega), Int.toNat_natCast, List.nil_append]
  · rw [receiveVector]
    dsimp only
    rw [if_pos hpos, hc, if_neg (by rw [hlen]; omega), hlen]
    unfold resizeBytes
    rw [List.take_nil, List.nil_append, List.drop_replicate]
    have e : s * m - ([] : List ℕ).length - c = 2 ^ 32 := by
      rw [List.length_nil]
      omega
    rw [e]

/-- **C112, sums over the ranks.** All ranks (or the rank 0, with the others unchanged) get the sum of each of the `n` elements, for
elements of any number of components. -/
theorem C112_sum {R : ℕ} {K : Type} [CommRing K] (w n : ℕ) (all : Bool) (v : Fin R → ℕ → K) (r : Fin R) (i j : ℕ) (hi : i < n) (hj : j < w) :
    reduceNodeSum w n all v r (i * w + j) = if all = true ∨ r.val = 0 then ∑ r', v r' (i * w + j) else v r (i * w + j) := by
  have h : i * w + j < n * w := by
    have := Nat.mul_le_mul_right w (Nat.succ_le_of_lt hi)
    rw [Nat.succ_mul] at this
    omega
  unfold reduceNodeSum
  dsimp only
  by_cases ha : all = true ∨ r.val = 0
  · rw [if_pos ⟨ha, h⟩, if_pos h, if_pos ha]
  · rw [if_neg fun hc => ha hc.1, if_neg ha]

/-- **C112, products over the ranks (part of the property)**, for numbers. *Missing*: elements of several components, see `C112_product_wrong`. -/
theorem C112_product_partial {R : ℕ} {K : Type} [CommRing K] (n : ℕ) (all : Bool) (v : Fin R → ℕ → K) (r : Fin R) (i : ℕ) (hi : i < n) :
    reduceNodeProduct 1 n all v r i = if all = true ∨ r.val = 0 then ∏ r', v r' i else v r i := by
  unfold reduceNodeProduct
  dsimp only
  by_cases ha : all = true ∨ r.val = 0
  · rw [if_pos ⟨ha, by omega⟩, if_pos hi, if_pos ha]
  · rw [if_neg fun hc => ha hc.1, if_neg ha]

/-- **C112 fails for products of complex numbers.** The result of `reduce_node_product` of a complex number is the product of the real parts with
the imaginary part zero: with `i` on both of two ranks it is 0 and not -1. -/
theorem C112_product_wrong {R : ℕ} {K : Type} [CommRing K] (v : Fin R → ℕ → K) (r : Fin R) :
    (reduceNodeProduct 2 1 true v r 0 = ∏ r', v r' 0 ∧ reduceNodeProduct 2 1 true v r 1 = 0) ∧
    (reduceNodeProduct 2 1 true (fun (_ : Fin 2) i => if i = 0 then (0 : ℤ) else 1) 0 0 = 0 ∧ ((0 : ℤ) * 0 - 1 * 1, (0 : ℤ) * 1 + 1 * 0) = (-1, 0)) := by
  have h : ∀ {R : ℕ} {K : Type} [CommRing K] (v : Fin R → ℕ → K) (r : Fin R), reduceNodeProduct 2 1 true v r 0 = ∏ r', v r' 0 := by
    intro R K _ v r
    unfold reduceNodeProduct
    simp
  refine ⟨⟨h v r, ?_⟩, ?_, by decide⟩
  · unfold reduceNodeProduct
    simp
  · rw [h]
    simp

end Hila
