import Verif.Model.Coord

/-!
# Model of plumbing/shuffle.h and of the permutation table in tools/levi_civita.h
-/

namespace Hila

/-- `std::swap(arr[i], arr[j])`; `none` if an index is outside the array. -/
def swapAt {α : Type} (l : List α) (i j : ℕ) : Option (List α) :=
  match l[i]?, l[j]? with
  | some a, some b => some ((l.set i b).set j a)
  | _, _ => none

/-- The loop of `shuffle` (shuffle.h:23-30) from `j` down to 1. `choice j` is the value of
`(int)((j + 1) * hila::random())`; that it is at most `j` is a property of the random number in [0,1)
and not part of the model. -/
def shuffleLoop {α : Type} (choice : ℕ → ℕ) : ℕ → List α → Option (List α)
  | 0, l => some l
  | j + 1, l =>
    if choice (j + 1) ≠ j + 1 then (swapAt l (choice (j + 1)) (j + 1)).bind (shuffleLoop choice j)
    else shuffleLoop choice j l

/-- shuffle.h:19-30 `hila::shuffle`; for an empty array the loop is not entered. -/
def shuffle {α : Type} (choice : ℕ → ℕ) (l : List α) : Option (List α) :=
  shuffleLoop choice (l.length - 1) l

/-- The array of shuffle.h:50-58: all directions `0..NDIM-1` with both parities (`false` EVEN,
`true` ODD). -/
def dirParArray (ndim : ℕ) : List (ℕ × Bool) :=
  (List.range ndim).flatMap fun d => [(d, false), (d, true)]

/-- shuffle.h:49-63 `shuffle_directions_and_parities` on rank `r`: each rank shuffles with its own
random numbers, `broadcast` replaces the result by that of rank 0. -/
def shuffleDirsPars (ndim : ℕ) (choice : ℕ → ℕ → ℕ) (_r : ℕ) : Option (List (ℕ × Bool)) :=
  shuffle (choice 0) (dirParArray ndim)

/-! ### levi_civita.h -/

/-- The inner loop "apply permutation" (levi_civita.h:45-55) for `i` from `i` to `N - 2` on a row of
`N + 1` numbers, the last one the sign. The first argument is `N - 1 - i`. -/
def leviApply (N : ℕ) (ind : List ℕ) : ℕ → List ℤ → Option (List ℤ)
  | 0, row => some row
  | k + 1, row =>
    let i := N - 1 - (k + 1)
    match ind[i]? with
    | none => none
    | some x =>
      if x ≠ 0 then
        match swapAt row i (i + x) with
        | none => none
        | some row' =>
          match row'[N]? with
          | none => none
          | some s => leviApply N ind k (row'.set N (-s))
      else leviApply N ind k row

/-- Carry loop (levi_civita.h:59-64) from `i` down to 1. -/
def leviCarry (N : ℕ) : ℕ → List ℕ → List ℕ
  | 0, ind => ind
  | i + 1, ind =>
    if ind.getD (i + 1) 0 > N - 1 - (i + 1) then
      leviCarry N i ((ind.set (i + 1) 0).modify i (· + 1))
    else leviCarry N i ind

/-- "next permutation vector" (levi_civita.h:58-64). -/
def leviNext (N : ℕ) (ind : List ℕ) : List ℕ := leviCarry N (N - 1) (ind.modify (N - 1) (· + 1))

/-- The loop over `j` (levi_civita.h:39-65), `count` more rows. -/
def leviRows (N : ℕ) : ℕ → List ℕ → Option (List (List ℤ))
  | 0, _ => some []
  | count + 1, ind =>
    (leviApply N ind (N - 1) ((List.range N).map (fun i : ℕ => (i : ℤ)) ++ [1])).bind fun row =>
      (leviRows N count (leviNext N ind)).map (row :: ·)

/-- levi_civita.h:29-67, the constructor: the table with `N!` rows. -/
def leviCivita (N fac : ℕ) : Option (List (List ℤ)) := leviRows N fac (List.replicate N 0)

end Hila
