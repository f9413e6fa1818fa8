import Mathlib.Algebra.Order.Field.Basic
import Mathlib.Data.List.Basic
import Mathlib.Data.Rat.Defs
import Mathlib.Algebra.Order.Ring.Rat

/-!
# Model of tools/multicanonical.cpp

Real arithmetic is that of an ordered field `K`: rounding of `double` operations is not modelled.
`none` means an access outside a vector (or `front()` of an empty one), or a division by zero.
-/

namespace Hila

variable {K : Type} [Field K] [LinearOrder K] [IsStrictOrderedRing K]

/-- `std::distance(v.begin(), std::lower_bound(v.begin(), v.end(), x))`: number of leading elements
smaller than `x`. (For sorted `v` this is what the binary search finds.) -/
def lowerBound (v : List K) (x : K) : ℕ := (v.takeWhile fun y => decide (y < x)).length

/-- multicanonical.cpp:410-421 `find_OP_bin_index`. -/
def findBinIndex (limits : List K) (x : K) : Option ℤ :=
  match limits.head?, limits.getLast? with
  | some a, some b =>
    if x ≤ a then some (-1)
    else if x ≥ b then some (-1)
    else some ((lowerBound limits x : ℤ) - 1)
  | _, _ => none

/-- multicanonical.cpp:430-441 `bin_hit_OP_value`. -/
def binHit (limits : List K) (hits : List ℕ) (x : K) : Option (List ℕ) :=
  match limits.head?, limits.getLast? with
  | some a, some b =>
    if x ≤ a then some hits
    else if x ≥ b then some hits
    else if lowerBound limits x - 1 < hits.length then
      some (hits.modify (lowerBound limits x - 1) (· + 1))
    else none
  | _, _ => none

/-- A weight: a number or the infinity of a hard wall. -/
inductive MucaWeight (K : Type)
  | fin (x : K)
  | inf

/-- multicanonical.cpp:273-311 `weight_function` on rank 0. -/
def weightFunction (hard : Bool) (centers weights : List K) (x : K) : Option (MucaWeight K) :=
  match centers.head?, centers.getLast? with
  | some a, some b =>
    if x ≤ a then if hard then some .inf else weights.head?.map .fin
    else if x ≥ b then if hard then some .inf else weights.getLast?.map .fin
    else
      let i := lowerBound centers x - 1
      match centers[i]?, centers[i + 1]?, weights[i]?, weights[i + 1]? with
      | some c0, some c1, some w0, some w1 =>
        if c1 - c0 = 0 then none
        else some (.fin (w0 + (x - c0) * ((w1 - w0) / (c1 - c0))))
      | _, _, _, _ => none
  | _, _ => none

/-- multicanonical.cpp:500-507 `get_equidistant_bin_limits`; `none` for one bin, where the spacing is
`(max - min) / 0`. -/
def equidistantLimits (min max : K) (N : ℕ) : Option (List K) :=
  if (N : K) - 1 = 0 then none
  else
    let diff := (max - min) / ((N : K) - 1)
    some ((List.range (N + 1)).map fun i : ℕ => min - diff / 2 + diff * (i : K))

/-- Bin centres from the limits (multicanonical.cpp:218-220, 518-521); `n` centres. -/
def binCenters (limits : List K) (n : ℕ) : Option (List K) :=
  (List.range n).mapM fun i => do
    let a ← limits[i + 1]?
    let b ← limits[i]?
    some ((a + b) / 2)

/-! ### Weight files -/

/-- A line of a weight file: text that contains "OP_value" or not, or numbers. -/
inductive WLine (K : Type)
  | text (hasOPvalue : Bool)
  | row (a b c : K)
  | single (a : K)

/-- multicanonical.cpp:237-258 `write_weight_function`. `pr x` is the number denoted by the text printed
for `x` with `%e`. -/
def writeWeights (pr : K → K) (limits centers weights : List K) : Option (List (WLine K)) := do
  let rows ← (List.range centers.length).mapM fun i => do
    let l ← limits[i]?
    let c ← centers[i]?
    let w ← weights[i]?
    some (WLine.row (pr l) (pr c) (pr w))
  let last ← limits[centers.length]?
  some (WLine.text true :: rows ++ [WLine.single (pr last)])

/-- Does the regular expression `.*OP_value.*` match the line? -/
def WLine.matchesOP : WLine K → Bool
  | .text b => b
  | _ => false

/-- First pass (multicanonical.cpp:149-156): `(header_length, data_length)`. -/
def countLines (s : ℤ × ℤ) (l : WLine K) : ℤ × ℤ :=
  let d := if l.matchesOP then 0 else s.2
  if d < 0 then (s.1 + 1, d) else (s.1, d + 1)

/-- Result of `read_weight_function`: `false`, an exception or undefined behaviour, or the tables. -/
inductive ReadWeights (K : Type)
  | failed
  | crash
  | ok (limits centers weights : List K)
deriving DecidableEq

/-- Tables under construction. -/
structure WTables (K : Type) where
  count : ℤ
  limits : List K
  centers : List K
  weights : List K

/-- One line of the second pass (multicanonical.cpp:183-210). `rd` is the conversion to `float`; `D` is
`data_length`. `none`: `return false`. -/
def readLine (rd : K → K) (D : ℤ) (s : WTables K) (l : WLine K) : Option (WTables K) := do
  let s1 ←
    if 0 ≤ s.count ∧ s.count < D - 1 then
      match l with
      | .row a b c => some { s with limits := s.limits.set s.count.toNat (rd a),
                                    centers := s.centers.set s.count.toNat (rd b),
                                    weights := s.weights.set s.count.toNat (rd c) }
      | _ => none
    else some s
  let s2 ←
    if s1.count = D - 1 then
      match l with
      | .row a _ _ => some { s1 with limits := s1.limits.set s1.count.toNat (rd a) }
      | .single a => some { s1 with limits := s1.limits.set s1.count.toNat (rd a) }
      | .text _ => none
    else some s1
  some { s2 with count := s2.count + 1 }

/-- multicanonical.cpp:132-222 `read_weight_function` on an existing file. -/
def readWeights (rd : K → K) (file : List (WLine K)) : ReadWeights K :=
  let (header, data) := file.foldl countLines (1, -1)
  let D := data - 1
  if D < 1 then .crash      -- std::vector with a negative size
  else
    match file.foldlM (readLine rd D)
        ⟨-header, List.replicate D.toNat 0, List.replicate (D.toNat - 1) 0,
          List.replicate (D.toNat - 1) 0⟩ with
    | none => .failed
    | some s =>
      match binCenters s.limits (D.toNat - 1) with
      | none => .crash
      | some c => .ok s.limits c s.weights

/-! ### Accept/reject -/

/-- Values of `log_P`. -/
inductive XReal (K : Type)
  | fin (x : K)
  | pinf
  | ninf
  | nan

/-- `-(W_new - W_old)` in IEEE arithmetic (multicanonical.cpp:371). -/
def logP : MucaWeight K → MucaWeight K → XReal K
  | .fin new, .fin old => .fin (-(new - old))
  | .inf, .fin _ => .ninf
  | .fin _, .inf => .pinf
  | .inf, .inf => .nan

/-- `::log(rval) < log_P` (multicanonical.cpp:376). `lr = none` is `log(0) = -inf`. -/
def acceptTest (lr : Option K) : XReal K → Bool
  | .fin x => match lr with
    | none => true
    | some l => decide (l < x)
  | .pinf => true
  | .ninf => false
  | .nan => false

/-- multicanonical.cpp:359-397 `accept_reject`: the decision. `log r` is the logarithm of the random
number, `none` for zero. -/
def acceptReject (log : K → Option K) (hard : Bool) (centers weights : List K) (old new r : K) :
    Option Bool := do
  let wn ← weightFunction hard centers weights new
  let wo ← weightFunction hard centers weights old
  some (acceptTest (log r) (logP wn wo))

/-! ### Weight iteration -/

/-- What the direct iteration methods change. -/
structure MucaState (K : Type) where
  weights : List K
  hits : List ℕ
  total : List ℕ
  count : ℕ
  C : K
  deriving DecidableEq

/-- `*std::min_element`: `none` for an empty vector (dereferencing `end()`). -/
def minElement (l : List K) : Option K :=
  match l with
  | [] => none
  | a :: r => some (r.foldl min a)

/-- multicanonical.cpp:563-611 `iterate_weight_function_direct` on rank 0: new state and the value that
is returned. `finish` is the finish condition. -/
def iterateDirect (finish : List ℕ → Bool) (limits : List K) (samples : ℕ) (Cmin : K)
    (s : MucaState K) (x : K) : Option (MucaState K × Bool) := do
  let hits ← binHit limits s.hits x
  let N := s.weights.length
  let s1 : MucaState K := { s with hits := hits, count := s.count + 1 }
  let s2 ←
    if s1.count ≥ samples then do
      if samples = 0 ∨ s1.hits.length < N ∨ s1.total.length < N then none
      let w := s1.weights.mapIdx fun m w => w + s1.C * (s1.hits.getD m 0 : K) * (N : K) / (samples : K)
      let tot := s1.total.mapIdx fun m t => if m < N then t + s1.hits.getD m 0 else t
      let base ← minElement w
      let w' := w.map (· - base)
      let hits' := s1.hits.mapIdx fun m h => if m < N then 0 else h
      if finish tot then
        some { weights := w', hits := hits', total := tot.mapIdx fun m t => if m < N then 0 else t,
               count := 0, C := s1.C / (3 / 2) }
      else some { weights := w', hits := hits', total := tot, count := 0, C := s1.C }
    else some s1
  some (s2, !decide (s2.C < Cmin))

/-- multicanonical.cpp:631-637: the visit is added to the totals and the weight of the bin is raised;
`none` for an access outside the tables. -/
def singleRecord (limits : List K) (s : MucaState K) (x : K) : Option (MucaState K) :=
  match findBinIndex limits x with
  | none => none
  | some bin =>
    if 0 ≤ bin then
      if bin.toNat < s.total.length ∧ bin.toNat < s.weights.length then
        some ⟨s.weights.modify bin.toNat (· + s.C), s.hits, s.total.modify bin.toNat (· + 1), s.count, s.C⟩
      else none
    else some s

/-- multicanonical.cpp:639-675: count and periodic check. The flag is `none` if the variable
`continue_iteration` was never set. -/
def singleCheck (finish : List ℕ → Bool) (interval : ℕ) (Cmin : K) (s : MucaState K) :
    Option (MucaState K × Option Bool) :=
  let N := s.weights.length
  if interval = 0 then none            -- modulo by zero
  else if (s.count + 1) % interval = 0 then
    match minElement s.weights with
    | none => none
    | some base =>
      if s.hits.length < N ∨ s.total.length < N then none
      else
        let w' := s.weights.map (· - base)
        let hits' := s.hits.mapIdx fun m h => if m < N then 0 else h
        let s3 : MucaState K :=
          if finish s.total then
            ⟨w', hits', s.total.mapIdx fun m t => if m < N then 0 else t, s.count + 1, s.C / (3 / 2)⟩
          else ⟨w', hits', s.total, s.count + 1, s.C⟩
        some (s3, some (!decide (s3.C < Cmin)))
  else some (⟨s.weights, s.hits, s.total, s.count + 1, s.C⟩, none)

/-- multicanonical.cpp:625-678 `iterate_weight_function_direct_single` on rank 0: new state and the
value returned, `none` if the variable was never set (undefined behaviour). -/
def iterateSingle (finish : List ℕ → Bool) (limits : List K) (interval : ℕ) (Cmin : K)
    (s : MucaState K) (x : K) : Option (MucaState K × Option Bool) :=
  (singleRecord limits s x).bind (singleCheck finish interval Cmin)

/-- multicanonical.cpp:762-765: the canonical histogram is divided by the bin widths. The loop runs over
`i = 1 .. N-1` and divides entry `i - 1`. Tables are functions of the index. -/
def canonicalNormalise (N : ℕ) (limits hist : ℕ → K) : ℕ → K := fun i =>
  if i + 1 < N then hist i / (limits (i + 1) - limits i) else hist i

/-- multicanonical.cpp:767-791: new weights of the canonical iteration, with the logarithm as a parameter;
`hist` is the normalised histogram. Entry `gsum[i]` is only used and changed in pass `i`, so the passes
are a recursion on the index. -/
def canonicalWeights (log : K → K) (minHits : ℕ) (prev hist : ℕ → K) (hits gsum : ℕ → ℕ) : ℕ → K
  | 0 => prev 0
  | i + 1 =>
    if hits (i + 1) ≥ minHits ∧ hits i ≥ minHits then
      canonicalWeights log minHits prev hist hits gsum i +
        ((prev (i + 1) - prev i) * (gsum (i + 1) : K) +
          -((hits (i + 1) + hits i : ℕ) : K) * log (hist i / hist (i + 1))) /
          ((gsum (i + 1) + (hits (i + 1) + hits i) : ℕ) : K)
    else prev (i + 1) - prev i + canonicalWeights log minHits prev hist hits gsum i

/-- multicanonical.cpp:823-828: whether progress is printed after a weight update; `none` is the division
by zero of `% (max_iters / 100)`. -/
def canonicalProgress (updates maxIters : ℕ) : Option Bool :=
  if maxIters / 100 = 0 then none else some (updates % (maxIters / 100) = 0)

end Hila
