import Verif.Model.FFT
import Mathlib.Analysis.Complex.Basic

/-!
# Model of the real transforms (plumbing/fft.h:493-600)

Exact arithmetic. The transforms themselves are parameters, to be instantiated with `Field::FFT`.
-/

namespace Hila

variable {n : ℕ}

/-- `Field::FFT_real_to_complex`, the field that is transformed (fft.h:498-499). -/
def realToComplexInput (f : Site n → ℝ) : Site n → ℂ := fun c => (f c : ℂ)

/-- The body of the loop over the directions in `hila::FFT_complex_to_real_site`
(fft.h:511-516); `some` once the function has returned. -/
def complexToRealStep (L c : Site n) (acc : Option ℤ) (d : Fin n) : Option ℤ :=
  match acc with
  | some v => some v
  | none =>
    if c d > 0 ∧ c d < L d / 2 then some 1
    else if c d > L d / 2 then some (-1)
    else none

/-- `hila::FFT_complex_to_real_site` (fft.h:508-520). -/
def complexToRealSite (L : Site n) (c : Site n) : ℤ :=
  ((List.finRange n).foldl (complexToRealStep L c) none).getD 0

/-- The site loop of `Field::FFT_complex_to_real` (fft.h:568-579); `rf` is the reflected field. -/
def symmetrize (L : Site n) (f rf : Site n → ℂ) : Site n → ℂ := fun c =>
  let type := complexToRealSite L c
  if type = 1 then f c
  else if type = -1 then (starRingEnd ℂ) (rf c)
  else ⟨(f c).re, 0⟩

/-- `Field::FFT_complex_to_real` (fft.h:551-594). `reflect` and `fft` may fail (`none`). The outcome
`none` also stands for termination when an extent is odd. The sums `ims` and `rss` are not used in
the code and omitted. -/
def fftComplexToReal (L : Site n) (reflect fft : (Site n → ℂ) → Option (Site n → ℂ))
    (f : Site n → ℂ) : Option (Site n → ℝ) :=
  if (List.finRange n).any (fun d => decide (L d % 2 > 0)) then none
  else (reflect f).bind fun rf => (fft (symmetrize L f rf)).map fun g c => (g c).re

end Hila
