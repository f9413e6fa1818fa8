import Mathlib.Analysis.RCLike.Basic
import Mathlib.Analysis.SpecialFunctions.Sqrt
import Mathlib.LinearAlgebra.Matrix.Trace
import Verif.Model.LinAlg

/-!
# Matrix exponential by the Cayley-Hamilton iteration (libraries/datatypes/matrix.h:3434-4430)

The size of the matrices is `k + 1`, so that the last index of an array is `Fin.last k`. Elements are real or complex
numbers; rounding is modelled only in the sum `twpf`, with which the iteration is stopped, as an arbitrary function
`add`. Arrays that the code does not initialise are arguments `junk`; for size 1 the code writes `pl[1]` outside the
array, outcome `none`. All other indices are in range (they are of type `Fin`).
-/

namespace Hila

variable {𝕜 : Type} [RCLike 𝕜] {k : ℕ}

/-- Square matrices of size `k + 1`. -/
abbrev SqMat (𝕜 : Type) (k : ℕ) := Matrix (Fin (k + 1)) (Fin (k + 1)) 𝕜

/-- Arrays of coefficients. -/
abbrev Coef (𝕜 : Type) (k : ℕ) := Fin (k + 1) → 𝕜

/-- `for (i = lo; i < n; ++i)`. -/
def forUp {S : Type} (n lo : ℕ) (f : Fin n → S → S) (s : S) : S := ((List.finRange n).drop lo).foldl (fun s i => f i s) s

/-- `for (i = n - 1; i >= lo; --i)`. -/
def forDn {S : Type} (n lo : ℕ) (f : Fin n → S → S) (s : S) : S := ((List.finRange n).drop lo).foldr f s

/-- The index `i - 1`, used for `i > 0`. -/
def prv {n : ℕ} (i : Fin n) : Fin n := ⟨i.val - 1, by omega⟩

/-- `norm(mat)` (matrix.h:1233-1257). -/
noncomputable def matNorm (A : SqMat 𝕜 k) : ℝ := Real.sqrt (∑ i, ∑ j, ‖A i j‖ ^ 2)

theorem exists_scale (x : ℝ) : ∃ nb : ℕ, ¬ x * (1 / 2) ^ nb ≥ Real.sqrt 2 := by
  obtain ⟨nb, h⟩ := exists_pow_lt_of_lt_one (show (0 : ℝ) < 1 / (|x| + 1) by positivity) (show (1 / 2 : ℝ) < 1 by norm_num)
  refine ⟨nb, not_le.2 ?_⟩
  have h1 : (|x| + 1) * (1 / 2 : ℝ) ^ nb < 1 := by
    rw [lt_div_iff₀ (by positivity)] at h
    rwa [mul_comm]
  have h2 : (1 : ℝ) ≤ Real.sqrt 2 := by rw [Real.one_le_sqrt]; norm_num
  have h3 : x * (1 / 2 : ℝ) ^ nb ≤ (|x| + 1) * (1 / 2) ^ nb :=
    mul_le_mul_of_nonneg_right (by linarith [le_abs_self x]) (by positivity)
  linarith

open Classical in
/-- The number `nb` of passes of the loop that determines the scaling factor (matrix.h:3439-3444): the first at which
the condition fails. The factor `sfac` is then `(1 / 2) ^ nb`. -/
noncomputable def scaleCount (A : SqMat 𝕜 k) : ℕ := Nat.find (exists_scale (matNorm A))

/-- The scaled matrix `pl[1]` (matrix.h:3449-3450). -/
noncomputable def scaled (A : SqMat 𝕜 k) : SqMat 𝕜 k := (((1 / 2 : ℝ) ^ scaleCount A : ℝ) : 𝕜) • A

/-- The powers `pl[1]`, ..., `pl[n-1]` of the matrix `B` (matrix.h:3449-3458); `pl[0]` keeps its contents. -/
def chPowers (junk : Fin (k + 1) → SqMat 𝕜 k) (B : SqMat 𝕜 k) : Option (Fin (k + 1) → SqMat 𝕜 k) :=
  if h : 1 < k + 1 then
    some (forUp (k + 1) 2 (fun i pl => Function.update pl i (pl ⟨i.val / 2, by omega⟩ * pl ⟨i.val / 2 + i.val % 2, by omega⟩))
      (Function.update junk ⟨1, h⟩ B))
  else none

/-- The traces `trpl` (matrix.h:3447-3461), after the loop instead of in it. `mul_trace(a, b)` is the trace of `a * b`
(matrix.h:2779-2793). -/
def chTraces (h : 1 < k + 1) (pl : Fin (k + 1) → SqMat 𝕜 k) : Fin (k + 2) → 𝕜 := fun i =>
  if hi : i.val < k + 1 then if i.val = 0 then ((k + 1 : ℕ) : 𝕜) else (pl ⟨i, hi⟩).trace
  else (pl ⟨(k + 1) / 2, by omega⟩ * pl ⟨(k + 1) / 2 + (k + 1) % 2, by omega⟩).trace

/-- The coefficients `crpl` of the characteristic polynomial (matrix.h:3464-3472). The inner loop changes only
`crpl[n - j]`, which is the accumulator here. -/
noncomputable def chNewton (tr : Fin (k + 2) → 𝕜) : Fin (k + 2) → 𝕜 :=
  forUp (k + 2) 1 (fun j c => Function.update c ⟨k + 1 - j.val, by omega⟩
    (forUp j.val 1 (fun i x => x - c ⟨k + 1 - (j.val - i.val), by omega⟩ * tr ⟨i.val, by omega⟩) (-tr j) / (j.val : 𝕜)))
    (Function.update 0 (Fin.last (k + 1)) 1)

/-- `crpl` of a matrix. -/
noncomputable def chPoly (h : 1 < k + 1) (pl : Fin (k + 1) → SqMat 𝕜 k) : Fin (k + 2) → 𝕜 := chNewton (chTraces h pl)

/-- Variables of the iteration. -/
structure ChState (𝕜 : Type) (k : ℕ) where
  pal : Coef 𝕜 k
  al : Coef 𝕜 k
  wpf : ℝ
  twpf : ℝ
  rs : ℝ

/-- Initial values (matrix.h:3477-3488, 3497). -/
noncomputable def chInit (add : ℝ → ℝ → ℝ) : ChState 𝕜 k :=
  let t := forUp (k + 1) 0 (fun i (t : Coef 𝕜 k × ℝ × ℝ) =>
    (Function.update t.1 i (t.2.1 : 𝕜), t.2.1 / (i.val + 1 : ℝ), add t.2.2 (t.2.1 / (i.val + 1 : ℝ)))) (0, 1, 1)
  ⟨Function.update 0 (Fin.last k) 1, t.1, t.2.1, t.2.2, 1⟩

/-- The new coefficients `pal`, the new `al` and the sum `s` (matrix.h:3499-3508). -/
noncomputable def chRow (c : Fin (k + 2) → 𝕜) (wpf rs : ℝ) (pal al : Coef 𝕜 k) : Coef 𝕜 k × Coef 𝕜 k × ℝ :=
  let cho := pal (Fin.last k) * (rs : 𝕜)
  let t := forDn (k + 1) 1 (fun i (t : Coef 𝕜 k × Coef 𝕜 k × ℝ) =>
    let p := t.1 (prv i) * (rs : 𝕜) - cho * c i.castSucc
    (Function.update t.1 i p, Function.update t.2.1 i (t.2.1 i + (wpf : 𝕜) * p), t.2.2 + ‖p‖ ^ 2)) (pal, al, 0)
  let p := -cho * c 0
  (Function.update t.1 0 p, Function.update t.2.1 0 (t.2.1 0 + (wpf : 𝕜) * p), t.2.2 + ‖p‖ ^ 2)

open Classical in
/-- One pass of the iteration without the test (matrix.h:3499-3522): the new state and the number added to `twpf`. -/
noncomputable def chPass (c : Fin (k + 2) → 𝕜) (j : ℕ) (st : ChState 𝕜 k) : ChState 𝕜 k × ℝ :=
  let t := chRow c st.wpf st.rs st.pal st.al
  let s := Real.sqrt t.2.2
  if s > 1 then (⟨t.1, t.2.1, st.wpf * (s / (j + 1 : ℝ)), st.twpf, 1 / s⟩, st.wpf * (s / (j + 1 : ℝ)) * 1)
  else (⟨t.1, t.2.1, st.wpf / (j + 1 : ℝ), st.twpf, 1⟩, st.wpf / (j + 1 : ℝ) * s)

open Classical in
/-- The loop (matrix.h:3498-3528) with the number of passes that are left and the counter `j`. The result is the state
and `j` after the loop. -/
noncomputable def chLoop (add : ℝ → ℝ → ℝ) (c : Fin (k + 2) → 𝕜) : ℕ → ℕ → ChState 𝕜 k → ChState 𝕜 k × ℕ
  | 0, j, st => (st, j)
  | left + 1, j, st =>
    let r := chPass c j st
    let twpf := add st.twpf r.2
    let st' := { r.1 with twpf := twpf }
    if st.twpf = twpf then (st', j) else chLoop add c left (j + 1) st'

/-- Multiplication of `pal` by the matrix, added to `al` with the factor `w` (matrix.h:3541-3547). -/
def sqRow (c : Fin (k + 2) → 𝕜) (w : 𝕜) (pal al : Coef 𝕜 k) : Coef 𝕜 k × Coef 𝕜 k :=
  let cho := pal (Fin.last k)
  let t := forDn (k + 1) 1 (fun i (t : Coef 𝕜 k × Coef 𝕜 k) =>
    let p := t.1 (prv i) - cho * c i.castSucc
    (Function.update t.1 i p, Function.update t.2 i (t.2 i + w * p))) (pal, al)
  let p := -cho * c 0
  (Function.update t.1 0 p, Function.update t.2 0 (t.2 0 + w * p))

/-- One squaring (matrix.h:3534-3548). -/
def chSquare (c : Fin (k + 2) → 𝕜) (al : Coef 𝕜 k) : Coef 𝕜 k :=
  (forUp (k + 1) 1 (fun j (t : Coef 𝕜 k × Coef 𝕜 k) => sqRow c (al j) t.1 t.2) (al, fun i => al i * al 0)).2

/-- The output matrix (matrix.h:3551-3554). -/
def chOut (al : Coef 𝕜 k) (pl : Fin (k + 1) → SqMat 𝕜 k) : SqMat 𝕜 k :=
  forUp (k + 1) 1 (fun i o => al i • pl i + o) (Matrix.scalar _ (al 0))

/-- `chexp` (matrix.h:3434-3557): the matrix and the returned number. The counter `j` that is returned is also used in
the loop of the squarings, after which it is `n`. -/
noncomputable def chexp (add : ℝ → ℝ → ℝ) (junk : Fin (k + 1) → SqMat 𝕜 k) (A : SqMat 𝕜 k) : Option (SqMat 𝕜 k × ℕ) :=
  if h : 1 < k + 1 then
    (chPowers junk (scaled A)).map fun pl =>
      let c := chPoly h pl
      let r := chLoop add c (25 * (k + 1) - (k + 1)) (k + 1) (chInit add)
      (chOut ((chSquare c)^[scaleCount A] r.1.al) pl, if scaleCount A = 0 then r.2 else k + 1)
  else none

/-! ### Derivative -/

/-- Initial values of `kmats` (matrix.h:4118, 4122-4131): in pass `i` the elements of the upper triangle with `row + column = i`
are set to the coefficient `1 / (i + 1)!`. -/
noncomputable def kInit : SqMat 𝕜 k :=
  (forUp (k + 1) 0 (fun i (t : SqMat 𝕜 k × ℝ) =>
    let wpf := t.2 / (i.val + 1 : ℝ)
    (forUp (i.val + 1) (i.val - i.val / 2) (fun j m => setE m ⟨i.val - j.val, by omega⟩ ⟨j.val, by omega⟩ (wpf : 𝕜)) t.1, wpf)) (0, 1)).1

/-- Initial values of `kh` (matrix.h:4117, 4133-4136). -/
def khInit : SqMat 𝕜 k :=
  forUp (k + 1) (k - k / 2) (fun i m => setE m ⟨k - i.val, by omega⟩ i 1) 0

/-- The update of `kmats` and `kh` in a pass (matrix.h:4180-4192). -/
noncomputable def kRow (c : Fin (k + 2) → 𝕜) (wpf rs : ℝ) (pal : Coef 𝕜 k) (kmats kh : SqMat 𝕜 k) : SqMat 𝕜 k × SqMat 𝕜 k :=
  forDn (k + 1) 0 (fun i (t : SqMat 𝕜 k × SqMat 𝕜 k) =>
    let cho := t.2 i (Fin.last k) * (rs : 𝕜)
    let t := forDn (k + 1) (i.val + 1) (fun l (t : SqMat 𝕜 k × SqMat 𝕜 k) =>
      let v := t.2 i (prv l) * (rs : 𝕜) - cho * c l.castSucc
      (setE t.1 i l (t.1 i l + (wpf : 𝕜) * v), setE t.2 i l v)) t
    let v := (if 0 < i.val then t.2 (prv i) i * (rs : 𝕜) else pal i * (rs : 𝕜)) - cho * c i.castSucc
    (setE t.1 i i (t.1 i i + (wpf : 𝕜) * v), setE t.2 i i v)) (kmats, kh)

/-- Variables of the iteration with derivative. -/
structure ChKState (𝕜 : Type) (k : ℕ) extends ChState 𝕜 k where
  kmats : SqMat 𝕜 k
  kh : SqMat 𝕜 k

open Classical in
/-- The loop (matrix.h:4146-4193). -/
noncomputable def chKLoop (add : ℝ → ℝ → ℝ) (c : Fin (k + 2) → 𝕜) : ℕ → ℕ → ChKState 𝕜 k → ChKState 𝕜 k × ℕ
  | 0, j, st => (st, j)
  | left + 1, j, st =>
    let r := chPass c j st.toChState
    let twpf := add st.twpf r.2
    let st' := { r.1 with twpf := twpf }
    if st.twpf = twpf then (⟨st', st.kmats, st.kh⟩, j)
    else
      let q := kRow c st'.wpf st'.rs st'.pal st.kmats st.kh
      chKLoop add c left (j + 1) ⟨st', q.1, q.2⟩

/-- The first part of a squaring (matrix.h:4197-4209): `al`, `kmats` and `kh`. -/
noncomputable def sqInit (al : Coef 𝕜 k) (kmats kh : SqMat 𝕜 k) : Coef 𝕜 k × SqMat 𝕜 k × SqMat 𝕜 k :=
  forUp (k + 1) 0 (fun i (t : Coef 𝕜 k × SqMat 𝕜 k × SqMat 𝕜 k) =>
    let kh := setE t.2.2 i i ((1 / 2 : 𝕜) * t.2.1 i i)
    let kmats := setE t.2.1 i i (2 * kh 0 i * t.1 i)
    let u := forUp (k + 1) (i.val + 1) (fun j (u : SqMat 𝕜 k × SqMat 𝕜 k) =>
      let v := (1 / 2 : 𝕜) * u.1 i j
      let kh := setE (setE u.2 i j v) j i v
      (setE u.1 i j (kh 0 i * t.1 j + kh 0 j * t.1 i), kh)) (kmats, kh)
    (Function.update t.1 i (t.1 i * al 0), u)) (al, kmats, kh)

/-- Multiplication by the matrix in a squaring, with the terms of the derivative (matrix.h:4211-4224). -/
def sqKRow (c : Fin (k + 2) → 𝕜) (w : 𝕜) (l : Fin (k + 1)) (kh : SqMat 𝕜 k) (pal al : Coef 𝕜 k) (kmats : SqMat 𝕜 k) :
    Coef 𝕜 k × Coef 𝕜 k × SqMat 𝕜 k :=
  let cho := pal (Fin.last k)
  let t := forDn (k + 1) 1 (fun i (t : Coef 𝕜 k × Coef 𝕜 k × SqMat 𝕜 k) =>
    let p := t.1 (prv i) - cho * c i.castSucc
    let pal := Function.update t.1 i p
    (pal, Function.update t.2.1 i (t.2.1 i + w * p),
      forUp (k + 1) i.val (fun j m => setE m i j (m i j + (kh i l * pal j + kh l j * pal i))) t.2.2)) (pal, al, kmats)
  let p := -cho * c 0
  let pal := Function.update t.1 0 p
  (pal, Function.update t.2.1 0 (t.2.1 0 + w * p),
    forUp (k + 1) 0 (fun j m => setE m 0 j (m 0 j + (kh 0 l * pal j + kh l j * pal 0))) t.2.2)

/-- One squaring with derivative (matrix.h:4196-4226): `al`, `kmats` and `kh`. -/
noncomputable def chKSquare (c : Fin (k + 2) → 𝕜) (t : Coef 𝕜 k × SqMat 𝕜 k × SqMat 𝕜 k) : Coef 𝕜 k × SqMat 𝕜 k × SqMat 𝕜 k :=
  let u := sqInit t.1 t.2.1 t.2.2
  let v := forUp (k + 1) 1 (fun l (v : Coef 𝕜 k × Coef 𝕜 k × SqMat 𝕜 k) => sqKRow c (t.1 l) l u.2.2 v.1 v.2.1 v.2.2)
    (t.1, u.1, u.2.1)
  (v.2.1, v.2.2, u.2.2)

/-- `chexpk` (matrix.h:4070-4233): the exponential and `kmats`. The same computation is done by the functions with
derivative at matrix.h:3622-3766 and 3848-4001, which use `kmats` and the powers `pl` afterwards. -/
noncomputable def chexpk (add : ℝ → ℝ → ℝ) (junk : Fin (k + 1) → SqMat 𝕜 k) (A : SqMat 𝕜 k) : Option (SqMat 𝕜 k × SqMat 𝕜 k) :=
  if h : 1 < k + 1 then
    (chPowers junk (scaled A)).map fun pl =>
      let c := chPoly h pl
      let r := (chKLoop add c (25 * (k + 1) - (k + 1)) (k + 1) ⟨chInit add, kInit, khInit⟩).1
      let t := (chKSquare c)^[scaleCount A] (r.al, r.kmats, r.kh)
      (chOut t.1 pl, t.2.1)
  else none

/-- The matrix `kh` for row `i` of the coefficients (matrix.h:3792-3796, 3808-3817, 4023-4040, 4300-4320): only the upper
triangle of `kmats` is read. -/
def kComb (kmats : SqMat 𝕜 k) (pl : Fin (k + 1) → SqMat 𝕜 k) (i : Fin (k + 1)) : SqMat 𝕜 k :=
  if i.val = 0 then forUp (k + 1) 1 (fun j m => kmats 0 j • pl j + m) (Matrix.scalar _ (kmats 0 0))
  else forUp (k + 1) i.val (fun j m => kmats i j • pl j + m)
    (forUp i.val 1 (fun j m => kmats ⟨j.val, by omega⟩ i • pl ⟨j.val, by omega⟩ + m) (Matrix.scalar _ (kmats 0 i)))

/-- The matrix `domat` of `mult_chexp` and `mult_chexpk_fast` (matrix.h:4021-4044, 4299-4321). -/
def kTrace (kmats : SqMat 𝕜 k) (pl : Fin (k + 1) → SqMat 𝕜 k) (tomat : SqMat 𝕜 k) : SqMat 𝕜 k :=
  forUp (k + 1) 1 (fun i m => pl i * tomat * kComb kmats pl i + m) (tomat * kComb kmats pl 0)

/-- `mult_chexpk_fast` (matrix.h:4265-4326): `omat` and `domat`. -/
noncomputable def multChexpkFast (junk : Fin (k + 1) → SqMat 𝕜 k) (A texp kmats mmat : SqMat 𝕜 k) : Option (SqMat 𝕜 k × SqMat 𝕜 k) :=
  (chPowers junk (scaled A)).map fun pl =>
    let tomat := texp.conjTranspose * mmat
    (tomat * texp, kTrace kmats pl tomat)

/-- `mult_chexp` (matrix.h:3848-4049): `omat` and `domat`. -/
noncomputable def multChexp (add : ℝ → ℝ → ℝ) (junk : Fin (k + 1) → SqMat 𝕜 k) (A mmat : SqMat 𝕜 k) : Option (SqMat 𝕜 k × SqMat 𝕜 k) :=
  (chexpk add junk A).bind fun r => (chPowers junk (scaled A)).map fun pl =>
    let tomat := r.1.conjTranspose * mmat
    (tomat * r.1, kTrace r.2 pl tomat)

/-- `chexp` with derivatives (matrix.h:3623-3829): `omat` and `domat[ic1][ic2]`. -/
noncomputable def chexpD (add : ℝ → ℝ → ℝ) (junk : Fin (k + 1) → SqMat 𝕜 k) (A : SqMat 𝕜 k) :
    Option (SqMat 𝕜 k × (Fin (k + 1) → Fin (k + 1) → SqMat 𝕜 k)) :=
  (chexpk add junk A).bind fun r => (chPowers junk (scaled A)).map fun pl =>
    (r.1, fun ic1 ic2 =>
      let t0 : SqMat 𝕜 k := forUp (k + 1) 0 (fun a m => setE m a ic1 (m a ic1 + kComb r.2 pl 0 a ic2)) 0
      forUp (k + 1) 1 (fun i m => m + Matrix.of fun a b => pl i ic1 b * kComb r.2 pl i a ic2) t0)

/-! ### `chsexp` -/

/-- The coefficients `crpl` of `chsexp` (matrix.h:4346-4362): the matrix in use, `tc` and the array. -/
noncomputable def leverrier (A : SqMat 𝕜 k) : Fin (k + 2) → 𝕜 :=
  (forUp (k + 2) 2 (fun l (t : SqMat 𝕜 k × 𝕜 × (Fin (k + 2) → 𝕜)) =>
    let B := A * (t.1 - Matrix.scalar _ t.2.1)
    let tc := B.trace / (l.val : 𝕜)
    (B, tc, Function.update t.2.2 ⟨k + 1 - l.val, by omega⟩ tc))
    (A, A.trace, Function.update (Function.update 0 (Fin.last (k + 1)) 1) ⟨k, by omega⟩ A.trace)).2.2

/-- The pass of `chsexp` (matrix.h:4384-4397). -/
noncomputable def chsRow (c : Fin (k + 2) → 𝕜) (wpf rs : ℝ) (pal al : Coef 𝕜 k) : Coef 𝕜 k × Coef 𝕜 k × ℝ :=
  let pal := Function.update pal (Fin.last k) (pal (Fin.last k) * (rs : 𝕜))
  let ch := -pal (Fin.last k) * c 0
  let cho := pal 0 * (rs : 𝕜)
  let t := forUp (k + 1) 1 (fun i (t : (Coef 𝕜 k × Coef 𝕜 k × ℝ) × 𝕜) =>
    let ch := t.2 - t.1.1 (Fin.last k) * c i.castSucc
    ((Function.update t.1.1 i ch, Function.update t.1.2.1 i (t.1.2.1 i + (wpf : 𝕜) * ch), t.1.2.2 + ‖ch‖ ^ 2), t.1.1 i * (rs : 𝕜)))
    ((Function.update pal 0 ch, Function.update al 0 (al 0 + (wpf : 𝕜) * ch), ‖ch‖ ^ 2), cho)
  t.1

open Classical in
/-- The loop of `chsexp` (matrix.h:4383-4417). -/
noncomputable def chsLoop (add : ℝ → ℝ → ℝ) (c : Fin (k + 2) → 𝕜) : ℕ → ℕ → ChState 𝕜 k → ChState 𝕜 k
  | 0, _, st => st
  | left + 1, j, st =>
    let t := chsRow c st.wpf st.rs st.pal st.al
    let s := Real.sqrt t.2.2
    let wpf := if s > 1 then st.wpf * (s / (j + 1 : ℝ)) else st.wpf / (j + 1 : ℝ)
    let rs := if s > 1 then 1 / s else 1
    let rss := if s > 1 then 1 else s
    let twpf := add st.twpf (wpf * rss)
    if st.twpf = twpf then ⟨t.1, t.2.1, wpf, twpf, rs⟩ else chsLoop add c left (j + 1) ⟨t.1, t.2.1, wpf, twpf, rs⟩

/-- `chsexp` (matrix.h:4342-4434). For size 1 the code reads `al[-1]`, outcome `none`. -/
noncomputable def chsexp (add : ℝ → ℝ → ℝ) (A : SqMat 𝕜 k) : Option (SqMat 𝕜 k) :=
  if h : 1 < k + 1 then
    let al := (chsLoop add (leverrier A) (25 * (k + 1) - (k + 1)) (k + 1) (chInit add)).al
    some (forUp (k + 1) 2 (fun i B => B * A + Matrix.scalar _ (al ⟨k - i.val, by omega⟩))
      (al (Fin.last k) • A + Matrix.scalar _ (al ⟨k - 1, by omega⟩)))
  else none

end Hila
