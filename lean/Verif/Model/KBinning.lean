import Verif.Model.Gauge
import Mathlib.Analysis.SpecialFunctions.Pow.Real
import Mathlib.Analysis.SpecialFunctions.Trigonometric.Basic

/-!
# Binning of momenta (libraries/plumbing/spectraldensity.h, libraries/plumbing/fft.h)

`double` is modelled by the reals. Undefined behaviour (conversion to `int` out of range, index outside a vector) and
failed assertions are `none`.
-/

namespace Hila

variable {n : ℕ} {L : Fin n → ℕ}

/-- One component of `convert_to_k` (fft.h:41-45), folded coordinate. `pmod` does nothing to a lattice coordinate. -/
def foldCoord (l : ℕ) (v : ℕ) : ℤ := if v > l / 2 then (v : ℤ) - l else v

/-- `convert_to_k().norm()` (fft.h:36-48; the norm of a vector is the root of the sum of squares). -/
noncomputable def kNorm (x : PSite L) : ℝ :=
  Real.sqrt (∑ d, ((foldCoord (L d) (x d).val : ℝ) * 2 * Real.pi / L d) ^ 2)

/-- `k_binning` with `sd_k_bin_parameters` (spectraldensity.h:11-21, 73-77). An average over no points is not a number,
`none`. -/
structure KBin where
  max : ℝ
  power : ℝ
  binwidth : ℝ
  bins : ℕ
  exact : ℕ
  binsSet : Bool
  kAvg : List (Option ℝ)
  binCount : List ℕ

/-- Constructor without argument (spectraldensity.h:80-91). -/
noncomputable def KBin.init (L : Fin n → ℕ) : KBin :=
  let bins := (List.finRange n).foldl (fun b d => if L d > 2 * b then L d / 2 else b) 1
  ⟨Real.pi, 1, Real.pi / bins, bins, 0, false, [], []⟩

/-- Constructor with the number of bins (spectraldensity.h:93-100). -/
noncomputable def KBin.initBins (b : ℕ) : KBin := ⟨Real.pi, 1, Real.pi / b, b, 0, true, [], []⟩

/-- `sd_get_k_bin` (spectraldensity.h:27-34) from the length of the momentum; the conversion to `int` is towards 0 and
undefined for large values. -/
noncomputable def getKBin (kr : ℝ) (p : KBin) : Option ℤ :=
  let v := (kr / p.max) ^ p.power * p.bins
  if v < 2 ^ 31 then some ⌊v⌋ else none

/-- The condition `b >= 0 && b < par.bins` for bin `b` (spectraldensity.h:180, 292). -/
def InBin (o : Option ℤ) (b : ℕ) : Prop := o = some (b : ℤ)

open Classical in
/-- `sd_calculate_bin_info` (spectraldensity.h:278-303). -/
noncomputable def calcBinInfo [∀ d, NeZero (L d)] (p : KBin) : Option KBin :=
  if ∃ x : PSite L, getKBin (kNorm x) p = none then none
  else
    let count : ℕ → ℕ := fun b => (Finset.univ.filter fun x : PSite L => InBin (getKBin (kNorm x) p) b).card
    let s : ℕ → ℝ := fun b => ∑ x : PSite L, if InBin (getKBin (kNorm x) p) b then kNorm x else 0
    some ⟨p.max, p.power, p.binwidth, p.bins, p.exact, p.binsSet,
      (List.range p.bins).map fun i => if count i = 0 then none else some (s i / count i),
      (List.range p.bins).map count⟩

open Classical in
/-- `bin_k_field` (spectraldensity.h:166-189): the new state and the sums. -/
noncomputable def binKField [∀ d, NeZero (L d)] {M : Type} [AddCommMonoid M] (p : KBin) (f : PSite L → M) :
    Option (KBin × List M) :=
  match (if p.kAvg.length ≠ p.bins then calcBinInfo (L := L) p else some p) with
  | none => none
  | some p' =>
    if ∃ x : PSite L, getKBin (kNorm x) p' = none then none
    else some (p', (List.range p'.bins).map fun b => ∑ x : PSite L, if InBin (getKBin (kNorm x) p') b then f x else 0)

/-- `k(i)` (spectraldensity.h:307-317). -/
noncomputable def KBin.k (L : Fin n → ℕ) [∀ d, NeZero (L d)] (p : KBin) (i : ℤ) : Option (KBin × Option ℝ) :=
  match (if p.kAvg.length = 0 then calcBinInfo (L := L) p else some p) with
  | none => none
  | some p' =>
    if 0 ≤ i ∧ i < p'.bins then
      match p'.kAvg[i.toNat]? with
      | some v => some (p', v)
      | none => none
    else some (p', some 0)

/-- `count(i)` (spectraldensity.h:321-331). -/
noncomputable def KBin.count (L : Fin n → ℕ) [∀ d, NeZero (L d)] (p : KBin) (i : ℤ) : Option (KBin × ℕ) :=
  match (if p.binCount.length = 0 then calcBinInfo (L := L) p else some p) with
  | none => none
  | some p' =>
    if 0 ≤ i ∧ i < p'.bins then
      match p'.binCount[i.toNat]? with
      | some v => some (p', v)
      | none => none
    else some (p', 0)

/-- `bin_min` (spectraldensity.h:337-339). -/
noncomputable def KBin.binMin (p : KBin) (i : ℕ) : ℝ := ((i : ℝ) / p.bins) ^ (1 / p.power) * p.max

/-- `bin_max` (spectraldensity.h:341-343). -/
noncomputable def KBin.binMax (p : KBin) (i : ℕ) : ℝ := p.binMin (i + 1)

/-- Calls that set parameters. -/
inductive KSet where
  | bins (m : ℤ)
  | kMax (k : ℝ)
  | binwidth (w : ℝ)
  | power (q : ℝ)
  | exactBins (e : ℤ)

open Classical in
/-- The setters (spectraldensity.h:103-162); `none` is a failed assertion. -/
noncomputable def KBin.set (p : KBin) : KSet → Option KBin
  | .bins m => if m > 0 then some ⟨p.max, p.power, p.max / m.toNat, m.toNat, p.exact, true, p.kAvg, p.binCount⟩ else none
  | .kMax km =>
    if km > 0 then
      if p.binsSet = false then
        let b := ⌈km / p.binwidth⌉₊
        some ⟨p.binwidth * b, p.power, p.binwidth, b, p.exact, p.binsSet, p.kAvg, p.binCount⟩
      else some ⟨km, p.power, p.binwidth, p.bins, p.exact, p.binsSet, p.kAvg, p.binCount⟩
    else none
  | .binwidth w =>
    if w > 0 then
      let b := ⌈p.max / w⌉₊
      some ⟨w * b, p.power, w, b, p.exact, false, p.kAvg, p.binCount⟩
    else none
  | .power q => if q > 0 then some ⟨p.max, q, p.binwidth, p.bins, p.exact, p.binsSet, p.kAvg, p.binCount⟩ else none
  | .exactBins e =>
    if e ≥ 0 then some ⟨p.max, p.power, p.binwidth, p.bins, e.toNat, p.binsSet, p.kAvg, p.binCount⟩ else none

/-- A call: a setter, a query or the binning of a field. -/
inductive KOp (L : Fin n → ℕ) where
  | set (s : KSet)
  | k (i : ℤ)
  | count (i : ℤ)
  | binField (f : PSite L → ℂ)

/-- What a call returns. -/
inductive KOut where
  | nothing
  | k (v : Option ℝ)
  | count (c : ℕ)
  | field (s : List ℂ)

/-- One call. -/
noncomputable def kStep [∀ d, NeZero (L d)] (p : KBin) : KOp L → Option (KBin × KOut)
  | .set s => (p.set s).map fun q => (q, .nothing)
  | .k i => (KBin.k L p i).map fun r => (r.1, .k r.2)
  | .count i => (KBin.count L p i).map fun r => (r.1, .count r.2)
  | .binField f => (binKField p f).map fun r => (r.1, .field r.2)

/-- A sequence of calls with the values returned. -/
noncomputable def kRun [∀ d, NeZero (L d)] (p : KBin) : List (KOp L) → Option (KBin × List KOut)
  | [] => some (p, [])
  | op :: ops =>
    match kStep p op with
    | none => none
    | some (q, o) => (kRun q ops).map fun r => (r.1, o :: r.2)

end Hila
