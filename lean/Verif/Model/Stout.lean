import Verif.Model.Force

/-!
# Stout smearing (libraries/gauge/stout_smear.h)

Lattice, fields and numbers as in `Model/Force`. The functions of the matrix exponential are parameters; they are the
subject of `Model/ChExp`. A `std::vector` of fields is a list; an index outside of it is `none`.
-/

namespace Hila

variable {n : ℕ} {L : Fin n → ℕ} {N : ℕ}

/-- The functions of the exponential: `chexp(X)`, `mult_chexp(X, M)` with the results `omat` and `domat`, `chexpk(X)`
with the exponential and the coefficients, and `mult_chexpk_fast(X, texp, kmats, M)`. -/
structure StoutExp (N : ℕ) where
  ex : Mat N → Mat N
  multEx : Mat N → Mat N → Mat N × Mat N
  exk : Mat N → Mat N × Mat N
  multFast : Mat N → Mat N → Mat N → Mat N → Mat N × Mat N

/-- The pairs of different directions in the order of `foralldir(d1) foralldir(d2) if (d2 != d1)`. -/
def dirPairs (n : ℕ) : List (Fin n × Fin n) :=
  (List.finRange n).flatMap fun d1 => ((List.finRange n).filter (· ≠ d1)).map fun d2 => (d1, d2)

/-- One pair of directions in `staplesums` (stout_smear.h:32-50). `mult_aa` is the adjoint of a product (matrix.h:2824-2842),
`mult_add` adds a product (matrix.h:2905-2922). -/
def staplesumsStep (U : GField L N) (S : GField L N) (p : Fin n × Fin n) : GField L N :=
  let tF1 : PSite L → Mat N := fun x => (U p.1 x * U p.2 (x + unitStep p.1)).conjTranspose
  let lw1 : PSite L → Mat N := fun x => tF1 x * U p.2 x
  let S : GField L N := fun d x => if d = p.2 then S d x + U p.1 (x + unitStep p.2) * tF1 x else S d x
  fun d x => if d = p.1 then S d x + lw1 (x - unitStep p.2) else S d x

/-- `staplesums` (stout_smear.h:22-50). -/
def staplesums (U : GField L N) : GField L N := (dirPairs n).foldl (staplesumsStep U) fun _ _ => 0

/-- The argument of the exponential for the sum `s` of the staples of the link `u` (stout_smear.h:58, 69, 212, 263, 320, 425). -/
noncomputable def stoutArg (coeff : ℝ) (u s : Mat N) : Mat N := expand (projectScaled (u * s) (-coeff))

/-- `stout_smear1` (stout_smear.h:52-72), both versions; the second also gives the staples. -/
noncomputable def stoutSmear1 (e : StoutExp N) (coeff : ℝ) (U : GField L N) : GField L N :=
  let S := staplesums U
  fun d x => e.ex (stoutArg coeff (U d x) (S d x)) * U d x

/-- `stout_smear` with the number of steps (stout_smear.h:85-102). The first field of the state is the one that the next
step reads. `junk` is what the other one contains at first. -/
noncomputable def stoutSmear (e : StoutExp N) (coeff : ℝ) (iter : ℤ) (junk U : GField L N) : GField L N :=
  let two : GField L N × GField L N → GField L N × GField L N := fun s =>
    let b := stoutSmear1 e coeff s.1
    (stoutSmear1 e coeff b, b)
  if Int.tmod iter 2 = 0 then (two^[(Int.tdiv iter 2).toNat] (U, junk)).1
  else stoutSmear1 e coeff (two^[(Int.tdiv iter 2).toNat] (U, junk)).1

/-- One step of the version with lists (stout_smear.h:171). -/
noncomputable def stoutListStep (e : StoutExp N) (coeff : ℝ) (s : List (GField L N) × List (GField L N)) (i : ℕ) :
    Option (List (GField L N) × List (GField L N)) :=
  s.1[i - 1]?.bind fun U =>
    if i < s.1.length ∧ i - 1 < s.2.length then
      some (s.1.set i (stoutSmear1 e coeff U), s.2.set (i - 1) (staplesums U)) else none

/-- `stout_smear` with lists (stout_smear.h:164-173): new contents of `stoutlist` and `staplist`. -/
noncomputable def stoutSmearList (e : StoutExp N) (coeff : ℝ) (U : GField L N) (stoutlist staplist : List (GField L N)) :
    Option (List (GField L N) × List (GField L N)) :=
  if 0 < stoutlist.length then
    (List.range' 1 (stoutlist.length - 1)).foldlM (stoutListStep e coeff) (stoutlist.set 0 U, staplist)
  else none

/-- One pair of directions in the second half of `stout_smear_force` (stout_smear.h:229-253, 338-378). -/
noncomputable def stoutStapleForce (U K1 : GField L N) (KS : AlgField L N) (p : Fin n × Fin n) : AlgField L N :=
  let d1 := p.1
  let d2 := p.2
  let U2 : PSite L → Mat N := fun x => U d2 (x + unitStep d1)
  let U4 : PSite L → Mat N := fun x => (U d2 x).conjTranspose
  let tM1 : PSite L → Mat N := fun x => U2 x * (U d1 (x + unitStep d2)).conjTranspose
  let K21 : PSite L → Mat N := fun x => U4 x * K1 d1 x * tM1 x
  let tM1' : PSite L → Mat N := fun x => tM1 x * U4 x
  let K22 : PSite L → Mat N := fun x => tM1' x * K1 d1 x
  let K24 : PSite L → Mat N := fun x => K1 d1 x * tM1' x
  let tM1'' : PSite L → Mat N := fun x => U2 x * (K1 d1 (x + unitStep d2)).conjTranspose * U4 x
  let K23 : PSite L → Mat N := fun x => U d1 x * tM1'' x
  let K22' : PSite L → Mat N := fun x => K22 x + tM1'' x * U d1 x
  let K24' : PSite L → Mat N := fun x => K24 x + K23 x
  let KS : AlgField L N := fun d x => if d = d2 then KS d x - project (K22' (x - unitStep d1) - K24' x) else KS d x
  fun d x => if d = d1 then KS d x - project (K23 x - K21 (x - unitStep d2)) else KS d x

/-- `K1` and `KS` after the first half of a step (stout_smear.h:195-226, 303-335, 408-442), where `m` are the pairs `mtexp`,
`mdtexp` of the links. -/
noncomputable def stoutForceHead (coeff : ℝ) (U staps : GField L N) (m : Fin n → PSite L → Mat N × Mat N) :
    GField L N × AlgField L N :=
  let K1 : GField L N := fun d x => expand (projectScaled (m d x).2 coeff)
  (fun d x => K1 d x * U d x, fun d x => project ((m d x).1 - U d x * staps d x * K1 d x))

/-- One smearing step in `stout_smear_force` (stout_smear.h:191-253). -/
noncomputable def stoutForceStep (e : StoutExp N) (coeff : ℝ) (U staps : GField L N) (KS : AlgField L N) : AlgField L N :=
  let h := stoutForceHead coeff U staps fun d x => e.multEx (stoutArg coeff (U d x) (staps d x)) (expand (KS d x))
  (dirPairs n).foldl (stoutStapleForce U h.1) h.2

/-- `stout_smear_force` (stout_smear.h:175-255). For an empty list the first index is -2 after conversion to `int`, so
that the loop has no pass. -/
noncomputable def stoutForce (e : StoutExp N) (coeff : ℝ) (stoutlist staplist : List (GField L N)) (K : AlgField L N) :
    Option (AlgField L N) :=
  (List.range (stoutlist.length - 1)).reverse.foldlM (fun KS i =>
    stoutlist[i]?.bind fun U => staplist[i]?.map fun staps => stoutForceStep e coeff U staps KS) K

/-- The field `stoutk` of `stout_smear1k` (stout_smear.h:257-267). -/
noncomputable def stoutK (e : StoutExp N) (coeff : ℝ) (U : GField L N) : GField L N :=
  let S := staplesums U
  fun d x => (e.exk (stoutArg coeff (U d x) (S d x))).2

/-- The field `stout` of `stout_smear1k` (stout_smear.h:257-267). -/
noncomputable def stoutSmear1k (e : StoutExp N) (coeff : ℝ) (U : GField L N) : GField L N :=
  let S := staplesums U
  fun d x => (e.exk (stoutArg coeff (U d x) (S d x))).1 * U d x

/-- The three lists of `stout_smeark`. -/
structure StoutLists (L : Fin n → ℕ) (N : ℕ) where
  stout : List (GField L N)
  stap : List (GField L N)
  stoutk : List (GField L N)

/-- One step of `stout_smeark` (stout_smear.h:277). -/
noncomputable def stoutkStep (e : StoutExp N) (coeff : ℝ) (s : StoutLists L N) (i : ℕ) : Option (StoutLists L N) :=
  s.stout[i - 1]?.bind fun U =>
    if i < s.stout.length ∧ i - 1 < s.stap.length ∧ i - 1 < s.stoutk.length then
      some ⟨s.stout.set i (stoutSmear1k e coeff U), s.stap.set (i - 1) (staplesums U), s.stoutk.set (i - 1) (stoutK e coeff U)⟩
    else none

/-- `stout_smeark` (stout_smear.h:269-279). -/
noncomputable def stoutSmeark (e : StoutExp N) (coeff : ℝ) (U : GField L N) (s : StoutLists L N) : Option (StoutLists L N) :=
  if 0 < s.stout.length then
    (List.range' 1 (s.stout.length - 1)).foldlM (stoutkStep e coeff) { s with stout := s.stout.set 0 U }
  else none

/-- The pairs `mtexp`, `mdtexp` of `stout_smeark_force` and `stout_smeark_force_b` (stout_smear.h:320-322, 425-427). -/
noncomputable def stoutkPairs (e : StoutExp N) (coeff : ℝ) (U0 U dUK staps : GField L N) (KS : AlgField L N) :
    Fin n → PSite L → Mat N × Mat N := fun d x =>
  e.multFast (stoutArg coeff (U d x) (staps d x)) (U0 d x * (U d x).conjTranspose) (dUK d x) (expand (KS d x))

/-- One smearing step in `stout_smeark_force` (stout_smear.h:298-378). -/
noncomputable def stoutkForceStep (e : StoutExp N) (coeff : ℝ) (U0 U dUK staps : GField L N) (KS : AlgField L N) : AlgField L N :=
  let h := stoutForceHead coeff U staps (stoutkPairs e coeff U0 U dUK staps KS)
  (dirPairs n).foldl (stoutStapleForce U h.1) h.2

/-- `stout_smeark_force` (stout_smear.h:281-380). -/
noncomputable def stoutkForce (e : StoutExp N) (coeff : ℝ) (s : StoutLists L N) (K : AlgField L N) : Option (AlgField L N) :=
  (List.range (s.stout.length - 1)).reverse.foldlM (fun KS i =>
    s.stout[i + 1]?.bind fun U0 => s.stout[i]?.bind fun U => s.stoutk[i]?.bind fun dUK => s.stap[i]?.map fun staps =>
      stoutkForceStep e coeff U0 U dUK staps KS) K

/-- The array `S` of `get_stout_staples`: `nstap = 2 * (NDIM - 1)` fields for each direction, `none` before it is assigned. -/
abbrev StapArr (L : Fin n → ℕ) (N : ℕ) := Fin (2 * (n - 1)) → Fin n → Option (PSite L → Mat N)

/-- The directions `d2 != d1` with the counter that is 0 for the first one. -/
def othersIdx (d1 : Fin n) : List (Fin n × ℕ) := ((List.finRange n).filter (· ≠ d1)).zipIdx

/-- One pair of directions in `get_stout_staples` (stout_smear.h:130-153): `d1`, `d2` and the counter `k`. -/
def stoutStaplesStep (U : GField L N) (S : StapArr L N) (t : Fin n × Fin n × ℕ) : Option (StapArr L N) :=
  let d1 := t.1
  let d2 := t.2.1
  let tF1 : PSite L → Mat N := fun x => (U d1 x * U d2 (x + unitStep d1)).conjTranspose
  let lw1 : PSite L → Mat N := fun x => tF1 x * U d2 x
  let rl := if d1 < d2 then d1.val else d1.val - 1
  if h : rl < 2 * (n - 1) ∧ t.2.2 < 2 * (n - 1) then
    let S : StapArr L N := fun k d => if k = ⟨rl, h.1⟩ ∧ d = d2 then some fun x => U d1 (x + unitStep d2) * tF1 x else S k d
    some fun k d => if k = ⟨2 * (n - 1) - 1 - t.2.2, by omega⟩ ∧ d = d1 then some fun x => lw1 (x - unitStep d2) else S k d
  else none

/-- All elements of the array, if they have been assigned. -/
def StapArr.all (S : StapArr L N) : Option (Fin (2 * (n - 1)) → GField L N) :=
  if h : ∀ k d, (S k d).isSome then some fun k d => (S k d).get (h k d) else none

/-- `get_stout_staples` (stout_smear.h:117-162): the array and the sum, which starts with `S[0]`. The field `S[k][d]` is
read only in the sum. -/
def getStoutStaples (U : GField L N) : Option ((Fin (2 * (n - 1)) → GField L N) × GField L N) :=
  (((List.finRange n).flatMap fun d1 => (othersIdx d1).map fun t => (d1, t)).foldlM (stoutStaplesStep U) fun _ _ => none).bind fun S =>
    S.all.bind fun S =>
      if h : 0 < 2 * (n - 1) then
        some (S, fun d x => ((List.finRange (2 * (n - 1))).drop 1).foldl (fun t k => t + S k d x) (S ⟨0, h⟩ d x))
      else none

/-- Multiplication of the staples of the links in direction `d1` with `K1` (stout_smear.h:444-456); `none` if an index is
outside of the array. -/
def stoutMulK1 (K1 : GField L N) (d1 : Fin n) (S : Fin (2 * (n - 1)) → GField L N) (t : Fin n × ℕ) :
    Option (Fin (2 * (n - 1)) → GField L N) :=
  if h : t.2 < 2 * (n - 1) then
    let S : Fin (2 * (n - 1)) → GField L N := fun k d x => if k = ⟨t.2, h⟩ ∧ d = d1 then S k d x * K1 d1 x else S k d x
    some fun k d x => if k = ⟨2 * (n - 1) - 1 - t.2, by omega⟩ ∧ d = d1 then S k d x * K1 d1 x else S k d x
  else none

/-- One pair of directions in the last part of `stout_smeark_force_b` (stout_smear.h:464-487). -/
noncomputable def stoutForceB (U : GField L N) (S : Fin (2 * (n - 1)) → GField L N) (KS : AlgField L N) (t : Fin n × Fin n × ℕ) :
    Option (AlgField L N) :=
  let d1 := t.1
  let d2 := t.2.1
  if h : t.2.2 < 2 * (n - 1) then
    let KS := wloopForceFromWl U [(d2, true), (d1, false), (d2, false)] (fun x => S ⟨t.2.2, h⟩ d1 (x - unitStep d1)) 1.0 KS
    some (wloopForceFromWl U [(d2, false), (d1, false), (d2, true)]
      (fun x => S ⟨2 * (n - 1) - 1 - t.2.2, by omega⟩ d1 (x - unitStep d1)) 1.0 KS)
  else none

/-- One smearing step in `stout_smeark_force_b` (stout_smear.h:403-489). -/
noncomputable def stoutkForceStepB (e : StoutExp N) (coeff : ℝ) (U0 U dUK : GField L N) (KS : AlgField L N) : Option (AlgField L N) :=
  (getStoutStaples U).bind fun S =>
    let h := stoutForceHead coeff U S.2 (stoutkPairs e coeff U0 U dUK S.2 KS)
    (((List.finRange n).flatMap fun d1 => (othersIdx d1).map fun t => (d1, t)).foldlM (fun S t => stoutMulK1 h.1 t.1 S t.2) S.1).bind fun S =>
      ((List.finRange n).flatMap fun d1 => (othersIdx d1).map fun t => (d1, t)).foldlM (stoutForceB U S) h.2

/-- `stout_smeark_force_b` (stout_smear.h:383-491). -/
noncomputable def stoutkForceB (e : StoutExp N) (coeff : ℝ) (stoutlist stoutklist : List (GField L N)) (K : AlgField L N) :
    Option (AlgField L N) :=
  (List.range (stoutlist.length - 1)).reverse.foldlM (fun KS i =>
    stoutlist[i + 1]?.bind fun U0 => stoutlist[i]?.bind fun U => stoutklist[i]?.bind fun dUK => stoutkForceStepB e coeff U0 U dUK KS) K

end Hila
