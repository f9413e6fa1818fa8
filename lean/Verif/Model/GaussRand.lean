import Verif.Model.SU2
import Mathlib.Analysis.SpecialFunctions.Trigonometric.Basic
import Mathlib.Analysis.SpecialFunctions.Log.Basic
import Mathlib.Analysis.SpecialFunctions.Sqrt

/-!
# Model of the gaussian random numbers (random.cpp, random.h, cmplx.h, matrix.h, u1.h, su2.h, sun_matrix.h)

`hila::random()` reads the next number of a stream; which stream depends on the seed. Numbers are real (no rounding).
-/

namespace Hila

/-- State of the random numbers of a process: the stream of the generator (random.cpp:12-15), how many of its numbers have been read, and the static
variables of `gaussrand` (random.cpp:223-224). -/
structure GRng where
  u : ℕ → ℝ
  pos : ℕ
  drawNew : Bool
  second : ℝ

/-- State at the start of the program, seeded with the seed of the stream `u` (random.cpp:223-224: static variables). -/
def GRng.start (u : ℕ → ℝ) : GRng := ⟨u, 0, true, 0⟩

/-- random.cpp:84-148 `seed_random`; `gen` is the stream of numbers of the twister for a seed (57-68). The static variables of `gaussrand`
are not touched. -/
def seedRandom {σ : Type} (gen : σ → ℕ → ℝ) (seed : σ) (s : GRng) : GRng := ⟨gen seed, 0, s.drawNew, s.second⟩

open Classical in
/-- random.cpp:193-195: loop until `urnd` is not zero; `fuel` bounds the turns, `none` if the loop has not ended then. Second part: position in the
stream. -/
noncomputable def urndLoop (u : ℕ → ℝ) : ℕ → ℕ → Option (ℝ × ℕ)
  | 0, _ => none
  | fuel + 1, p => if 1 - u p = 0 then urndLoop u fuel (p + 1) else some (1 - u p, p + 1)

/-- random.cpp:187-200 `gaussrand2`: the value returned and `out2`. -/
noncomputable def gaussrand2 (fuel : ℕ) (s : GRng) : Option ((ℝ × ℝ) × GRng) :=
  let phi := 2 * Real.pi * s.u s.pos
  (urndLoop s.u fuel (s.pos + 1)).bind fun q =>
    let r := Real.sqrt (-Real.log q.1 * (2 * 1))
    some ((r * Real.sin phi, r * Real.cos phi), ⟨s.u, q.2, s.drawNew, s.second⟩)

/-- random.cpp:222-231 `gaussrand`, and 239-242 for GPUs, where the second number is thrown away. -/
noncomputable def gaussrand (gpu : Bool) (fuel : ℕ) (s : GRng) : Option (ℝ × GRng) :=
  if gpu then (gaussrand2 fuel s).bind fun q => some (q.1.1, q.2)
  else if s.drawNew then (gaussrand2 fuel s).bind fun q => some (q.1.1, ⟨q.2.u, q.2.pos, false, q.1.2⟩)
  else some (s.second, ⟨s.u, s.pos, true, s.second⟩)

/-- cmplx.h:344-349 `Complex::gaussian_random`: real and imaginary part. -/
noncomputable def cplxGauss (fuel : ℕ) (w : ℝ) (s : GRng) : Option ((ℝ × ℝ) × GRng) :=
  (gaussrand2 fuel s).bind fun q => some ((q.1.1 * w, q.1.2 * w), q.2)

/-- matrix.h:1511-1514: the loop over pairs of elements from `i` on, with `k = n * m` elements; `c` is the memory of the matrix. -/
noncomputable def fillPairs (fuel : ℕ) (w : ℝ) (k i : ℕ) (c : ℕ → ℝ) (s : GRng) : Option ((ℕ → ℝ) × GRng) :=
  if i + 1 < k then
    (gaussrand2 fuel s).bind fun q =>
      fillPairs fuel w k (i + 2) (fun j => if j = i + 1 then q.1.2 * w else if j = i then q.1.1 * w else c j) q.2
  else some (c, s)
  termination_by k - i

/-- matrix.h:1496-1520 `gaussian_random` of a real matrix with `k` elements, also `Algebra::gaussian_random` (sun_matrix.h:558-561). -/
noncomputable def matGaussReal (gpu : Bool) (fuel : ℕ) (w : ℝ) (k : ℕ) (c : ℕ → ℝ) (s : GRng) : Option ((ℕ → ℝ) × GRng) :=
  (fillPairs fuel w k 0 c s).bind fun q =>
    if k % 2 > 0 then (gaussrand gpu fuel q.2).bind fun g => some (fun j => if j = k - 1 then g.1 * w else q.1 j, g.2)
    else some q

/-- matrix.h:1503-1505 `gaussian_random` of a complex matrix, element `i` and the following ones, `k` in all. -/
noncomputable def matGaussCplx (fuel : ℕ) (w : ℝ) : ℕ → ℕ → (ℕ → ℝ × ℝ) → GRng → Option ((ℕ → ℝ × ℝ) × GRng)
  | 0, _, c, s => some (c, s)
  | k + 1, i, c, s => (cplxGauss fuel w s).bind fun q => matGaussCplx fuel w k (i + 1) (fun j => if j = i then q.1 else c j) q.2

/-- su2.h:208-217 `SU2::gaussian_random`. -/
noncomputable def su2Gauss (fuel : ℕ) (w : ℝ) (s : GRng) : Option (SU2 × GRng) :=
  (gaussrand2 fuel s).bind fun p => (gaussrand2 fuel p.2).bind fun q => some (⟨w * p.1.1, w * p.1.2, w * q.1.1, w * q.1.2⟩, q.2)

/-- su2.h:584-591 `gaussian_random` of the algebra of SU2. -/
noncomputable def su2AlgGauss (gpu : Bool) (fuel : ℕ) (w : ℝ) (s : GRng) : Option (SU2Algebra × GRng) :=
  (gaussrand2 fuel s).bind fun p => (gaussrand gpu fuel p.2).bind fun q => some (⟨w * p.1.1, w * p.1.2, w * q.1⟩, q.2)

/-- su2.h:196-205 `SU2::random`. -/
noncomputable def su2Random (fuel : ℕ) (w : ℝ) (s : GRng) : Option (SU2 × GRng) :=
  (su2Gauss fuel w s).bind fun q => q.1.normalize.bind fun x => some (x, q.2)

/-- sun_matrix.h:211-221 `SU<2>::random`; `c` is the memory of the vector. Division by a norm of zero is `none`. -/
noncomputable def suTwoRandom (gpu : Bool) (fuel : ℕ) (c : ℕ → ℝ) (s : GRng) : Option (Matrix (Fin 2) (Fin 2) ℂ × GRng) :=
  (matGaussReal gpu fuel 1 4 c s).bind fun q =>
    let len := Real.sqrt (q.1 0 * q.1 0 + q.1 1 * q.1 1 + q.1 2 * q.1 2 + q.1 3 * q.1 3)
    if len = 0 then none
    else
      let v := fun j => q.1 j / len
      some (!![⟨v 0, v 3⟩, ⟨v 2, v 1⟩; ⟨-v 2, v 1⟩, ⟨v 0, -v 3⟩], q.2)

/-- Calls that fill an object with gaussian numbers of width `w`. -/
inductive GReq where
  /-- `hila::gaussian_random(x, w)` of a real number (random.h:153-156), `U1::gaussian_random(w)` (u1.h:98-101). -/
  | real (w : ℝ)
  /-- `Complex::gaussian_random(w)`. -/
  | cplx (w : ℝ)
  /-- A real matrix or vector with `k` elements (or an algebra with `k` generators) and the old content `c` of its memory. -/
  | rmat (w : ℝ) (k : ℕ) (c : ℕ → ℝ)
  /-- A complex matrix or vector. -/
  | cmat (w : ℝ) (k : ℕ) (c : ℕ → ℝ × ℝ)
  /-- `SU2::gaussian_random(w)`. -/
  | su2 (w : ℝ)
  /-- `Algebra<SU2>::gaussian_random(w)`. -/
  | su2alg (w : ℝ)

/-- The components of the object after the call. -/
noncomputable def GReq.exec (gpu : Bool) (fuel : ℕ) : GReq → GRng → Option (List ℝ × GRng)
  | .real w, s => (gaussrand gpu fuel s).bind fun q => some ([q.1 * w], q.2)
  | .cplx w, s => (cplxGauss fuel w s).bind fun q => some ([q.1.1, q.1.2], q.2)
  | .rmat w k c, s => (matGaussReal gpu fuel w k c s).bind fun q => some ((List.range k).map q.1, q.2)
  | .cmat w k c, s => (matGaussCplx fuel w k 0 c s).bind fun q => some ((List.range k).flatMap fun i => [(q.1 i).1, (q.1 i).2], q.2)
  | .su2 w, s => (su2Gauss fuel w s).bind fun q => some ([q.1.a, q.1.b, q.1.c, q.1.d], q.2)
  | .su2alg w, s => (su2AlgGauss gpu fuel w s).bind fun q => some ([q.1.a, q.1.b, q.1.c], q.2)

/-- A sequence of calls, for example `Field::gaussian_random` (field.h:2318-2339), which makes one for every site of the node; all components in the order
of the calls. -/
noncomputable def execAll (gpu : Bool) (fuel : ℕ) : List GReq → GRng → Option (List ℝ × GRng)
  | [], s => some ([], s)
  | r :: rs, s => (r.exec gpu fuel s).bind fun q => (execAll gpu fuel rs q.2).bind fun p => some (q.1 ++ p.1, p.2)

end Hila
