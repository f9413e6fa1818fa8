import Verif.Model.KBinning
import Verif.Props.FFT
import Mathlib.Tactic.Positivity
import Mathlib.Tactic.Ring
import Mathlib.Tactic.Linarith
import Mathlib.Tactic.NormNum
import Mathlib.Tactic.FieldSimp
import Mathlib.Tactic.FinCases
import Mathlib.Analysis.Real.Pi.Bounds

/-!
# C35: momentum bins are consistent with the spectral density
-/

namespace Hila

set_option linter.unusedSectionVars false

variable {n : ℕ} {L : Fin n → ℕ} [∀ d, NeZero (L d)]

/-- A mode lies between the edges of bin `b` that the user can ask for. -/
def InEdges (p : KBin) (b : ℕ) (x : PSite L) : Prop := p.binMin b ≤ kNorm x ∧ kNorm x < p.binMax b

/-- States the user can get: a constructor, then any calls. -/
def KReach (L : Fin n → ℕ) [∀ d, NeZero (L d)] (p : KBin) : Prop :=
  ∃ (p0 : KBin) (ops : List (KOp L)) (outs : List KOut),
    (p0 = KBin.init L ∨ ∃ b > 0, p0 = KBin.initBins b) ∧ kRun p0 ops = some (p, outs)

/-! ### Parameters -/

structure KBin.Good (p : KBin) : Prop where
  max : 0 < p.max
  power : 0 < p.power
  binwidth : 0 < p.binwidth
  bins : 0 < p.bins
  width : p.binsSet = false → p.binwidth * p.bins = p.max

theorem initBinsNum_pos (l : List (Fin n)) (b : ℕ) (hb : 0 < b) :
    0 < l.foldl (fun b d => if L d > 2 * b then L d / 2 else b) b := by
  induction l generalizing b with
  | nil => exact hb
  | cons a l ih =>
    rw [List.foldl_cons]
    apply ih
    split <;> omega

theorem init_good : (KBin.init L).Good := by
  have h := initBinsNum_pos (L := L) (List.finRange n) 1 (by omega)
  unfold KBin.init
  dsimp only
  generalize (List.finRange n).foldl (fun b d => if L d > 2 * b then L d / 2 else b) 1 = B at h ⊢
  have hB : (0 : ℝ) < B := by exact_mod_cast h
  exact ⟨Real.pi_pos, one_pos, div_pos Real.pi_pos hB, h, fun _ => by
    show Real.pi / B * B = Real.pi
    field_simp⟩

theorem initBins_good (b : ℕ) (hb : 0 < b) : (KBin.initBins b).Good := by
  have hB : (0 : ℝ) < b := by exact_mod_cast hb
  exact ⟨Real.pi_pos, one_pos, div_pos Real.pi_pos hB, hb, fun h => by cases h⟩

theorem set_good {p q : KBin} (hp : p.Good) (s : KSet) (h : p.set s = some q) : q.Good := by
  obtain ⟨h1, h2, h3, h4, h5⟩ := hp
  cases s with
  | bins m =>
    simp only [KBin.set] at h
    split at h
    · rename_i hm
      cases h
      have : (0 : ℝ) < m.toNat := by
        have : 0 < m.toNat := by omega
        exact_mod_cast this
      exact ⟨h1, h2, div_pos h1 this, by show 0 < m.toNat; omega, fun h => by cases h⟩
    · cases h
  | kMax km =>
    simp only [KBin.set] at h
    split at h
    · rename_i hm
      split at h
      · cases h
        have hc : 0 < ⌈km / p.binwidth⌉₊ := Nat.ceil_pos.2 (div_pos hm h3)
        have : (0 : ℝ) < ⌈km / p.binwidth⌉₊ := by exact_mod_cast hc
        exact ⟨mul_pos h3 this, h2, h3, hc, fun _ => rfl⟩
      · rename_i hs
        cases h
        exact ⟨hm, h2, h3, h4, fun h => absurd h hs⟩
    · cases h
  | binwidth w =>
    simp only [KBin.set] at h
    split at h
    · rename_i hm
      cases h
      have hc : 0 < ⌈p.max / w⌉₊ := Nat.ceil_pos.2 (div_pos h1 hm)
      have : (0 : ℝ) < ⌈p.max / w⌉₊ := by exact_mod_cast hc
      exact ⟨mul_pos hm this, h2, hm, hc, fun _ => rfl⟩
    · cases h
  | power q =>
    simp only [KBin.set] at h
    split at h
    · rename_i hm
      cases h
      exact ⟨h1, hm, h3, h4, h5⟩
    · cases h
  | exactBins e =>
    simp only [KBin.set] at h
    split at h
    · cases h
      exact ⟨h1, h2, h3, h4, h5⟩
    · cases h

/-- Two states with the same parameters. -/
structure KBin.Same (p q : KBin) : Prop where
  max : q.max = p.max
  power : q.power = p.power
  binwidth : q.binwidth = p.binwidth
  bins : q.bins = p.bins
  exact : q.exact = p.exact
  binsSet : q.binsSet = p.binsSet

theorem KBin.Same.refl (p : KBin) : p.Same p := ⟨rfl, rfl, rfl, rfl, rfl, rfl⟩

theorem KBin.Same.good {p q : KBin} (h : p.Same q) (hp : p.Good) : q.Good := by
  obtain ⟨a, b, c, d, _, f⟩ := h
  obtain ⟨h1, h2, h3, h4, h5⟩ := hp
  exact ⟨a ▸ h1, b ▸ h2, c ▸ h3, d ▸ h4, fun hs => by rw [c, d, a]; exact h5 (f ▸ hs)⟩

theorem KBin.Same.getKBin {p q : KBin} (h : p.Same q) (kr : ℝ) : getKBin kr q = getKBin kr p := by
  unfold Hila.getKBin
  rw [h.max, h.power, h.bins]

theorem KBin.Same.inEdges {p q : KBin} (h : p.Same q) (b : ℕ) (x : PSite L) : InEdges q b x ↔ InEdges p b x := by
  unfold InEdges KBin.binMax KBin.binMin
  rw [h.max, h.power, h.bins]

/-! ### Edges -/

theorem kNorm_nonneg (x : PSite L) : 0 ≤ kNorm x := Real.sqrt_nonneg _

omit [∀ d, NeZero (L d)] in
theorem le_bin_iff {p : KBin} (hp : p.Good) (κ : ℝ) (hκ : 0 ≤ κ) (b : ℕ) :
    (b : ℝ) ≤ (κ / p.max) ^ p.power * p.bins ↔ p.binMin b ≤ κ := by
  have hB : (0 : ℝ) < p.bins := by exact_mod_cast hp.bins
  unfold KBin.binMin
  rw [← div_le_iff₀ hB, ← le_div_iff₀ hp.max, one_div,
    Real.rpow_inv_le_iff_of_pos (by positivity) (div_nonneg hκ hp.max.le) hp.power]

theorem inBin_iff {p : KBin} (hp : p.Good) (hb : p.bins ≤ 2 ^ 31) (x : PSite L) (b : ℕ) (h : b < p.bins) :
    InBin (getKBin (kNorm x) p) b ↔ InEdges p b x := by
  unfold InBin getKBin InEdges KBin.binMax
  dsimp only
  have e1 := le_bin_iff hp _ (kNorm_nonneg x) b
  have e2 := (le_bin_iff hp _ (kNorm_nonneg x) (b + 1)).not
  rw [not_le, not_le] at e2
  rw [← e1, ← e2]
  generalize (kNorm x / p.max) ^ p.power * (p.bins : ℝ) = v
  by_cases hv : v < 2 ^ 31
  · rw [if_pos hv, Option.some_inj, Int.floor_eq_iff]
    push_cast
    rfl
  · rw [if_neg hv]
    constructor
    · intro h; cases h
    · rintro ⟨_, h2⟩
      exfalso
      apply hv
      have : ((b + 1 : ℕ) : ℝ) ≤ ((2 ^ 31 : ℕ) : ℝ) := by exact_mod_cast (by omega : b + 1 ≤ 2 ^ 31)
      push_cast at this h2
      linarith

/-! ### Calls keep the parameters in order -/

theorem calcBinInfo_same {p q : KBin} (h : calcBinInfo (L := L) p = some q) : p.Same q := by
  simp only [calcBinInfo] at h
  split at h
  · cases h
  · cases h
    exact ⟨rfl, rfl, rfl, rfl, rfl, rfl⟩

theorem kStep_same {p q : KBin} {op : KOp L} {o : KOut} (h : kStep p op = some (q, o)) :
    (∃ s, op = .set s ∧ p.set s = some q) ∨ p.Same q := by
  have hc : ∀ (c : Prop) [Decidable c] (p' : KBin),
      (if c then calcBinInfo (L := L) p else some p) = some p' → p.Same p' := by
    intro c _ p' h
    split at h
    · exact calcBinInfo_same h
    · cases h; exact KBin.Same.refl p
  cases op with
  | set s =>
    left
    simp only [kStep, Option.map_eq_some_iff] at h
    obtain ⟨q', h1, h2⟩ := h
    cases h2
    exact ⟨s, rfl, h1⟩
  | k i =>
    right
    simp only [kStep, Option.map_eq_some_iff] at h
    obtain ⟨r, h1, h2⟩ := h
    cases h2
    simp only [KBin.k] at h1
    split at h1
    · cases h1
    · rename_i p' hp'
      have := hc _ _ hp'
      split at h1
      · split at h1
        · cases h1; exact this
        · cases h1
      · cases h1; exact this
  | count i =>
    right
    simp only [kStep, Option.map_eq_some_iff] at h
    obtain ⟨r, h1, h2⟩ := h
    cases h2
    simp only [KBin.count] at h1
    split at h1
    · cases h1
    · rename_i p' hp'
      have := hc _ _ hp'
      split at h1
      · split at h1
        · cases h1; exact this
        · cases h1
      · cases h1; exact this
  | binField f =>
    right
    simp only [kStep, Option.map_eq_some_iff] at h
    obtain ⟨r, h1, h2⟩ := h
    cases h2
    simp only [binKField] at h1
    split at h1
    · cases h1
    · rename_i p' hp'
      have := hc _ _ hp'
      split at h1
      · cases h1
      · cases h1; exact this

theorem kRun_good {p q : KBin} (ops : List (KOp L)) {outs : List KOut} (hp : p.Good)
    (h : kRun p ops = some (q, outs)) : q.Good := by
  induction ops generalizing p outs with
  | nil => cases h; exact hp
  | cons op ops ih =>
    simp only [kRun] at h
    split at h
    · cases h
    · rename_i q1 o h1
      simp only [Option.map_eq_some_iff] at h
      obtain ⟨r, h2, h3⟩ := h
      cases h3
      refine ih ?_ h2
      rcases kStep_same h1 with ⟨s, _, h4⟩ | h4
      · exact set_good hp s h4
      · exact h4.good hp

theorem KReach.good {p : KBin} (h : KReach L p) : p.Good := by
  obtain ⟨p0, ops, outs, h0, h1⟩ := h
  refine kRun_good ops ?_ h1
  rcases h0 with rfl | ⟨b, hb, rfl⟩
  · exact init_good
  · exact initBins_good b hb

/-! ### Statements -/

/-- **C35 (one bin).** After every history the bins cover the momenta below `k_max` and do not overlap: a mode with
`|k| < k_max` lies between the edges of one bin, other modes between the edges of none. -/
theorem C35_one_bin {p : KBin} (h : KReach L p) (x : PSite L) :
    (kNorm x < p.max → ∃! b, b < p.bins ∧ InEdges p b x) ∧
    (p.max ≤ kNorm x → ∀ b < p.bins, ¬ InEdges p b x) := by
  have hp := h.good
  have hB : (0 : ℝ) < p.bins := by exact_mod_cast hp.bins
  have hκ := kNorm_nonneg x
  have hv0 : 0 ≤ (kNorm x / p.max) ^ p.power * p.bins :=
    mul_nonneg (Real.rpow_nonneg (div_nonneg hκ hp.max.le) _) hB.le
  have key : ∀ b, InEdges p b x ↔ ⌊(kNorm x / p.max) ^ p.power * p.bins⌋₊ = b := by
    intro b
    unfold InEdges KBin.binMax
    rw [← le_bin_iff hp _ hκ, ← not_le, ← le_bin_iff hp _ hκ, not_le, Nat.floor_eq_iff hv0]
    push_cast
    rfl
  have hm : (kNorm x / p.max) ^ p.power * p.bins < p.bins ↔ kNorm x < p.max := by
    have h1 := le_bin_iff hp _ hκ p.bins
    have h2 : p.binMin p.bins = p.max := by
      unfold KBin.binMin
      rw [div_self hB.ne', Real.one_rpow, one_mul]
    rw [h2] at h1
    rw [← not_le, h1, not_le]
  constructor
  · intro hlt
    refine ⟨⌊(kNorm x / p.max) ^ p.power * p.bins⌋₊, ⟨(Nat.floor_lt hv0).2 (hm.2 hlt), (key _).2 rfl⟩, ?_⟩
    rintro b ⟨_, hb⟩
    exact ((key b).1 hb).symm
  · intro hle b hb he
    have := (key b).1 he
    exact absurd (hm.1 ((Nat.floor_lt hv0).1 (this ▸ hb))) (not_lt.2 hle)

/-- No momentum is so far above `k_max` that the bin number cannot be converted to `int`. -/
def NoOverflow (L : Fin n → ℕ) [∀ d, NeZero (L d)] (p : KBin) : Prop :=
  ∀ x : PSite L, (kNorm x / p.max) ^ p.power * p.bins < 2 ^ 31

theorem getKBin_none_iff (p : KBin) :
    (∃ x : PSite L, getKBin (kNorm x) p = none) ↔ ¬ NoOverflow L p := by
  unfold NoOverflow getKBin
  dsimp only
  rw [not_forall]
  refine exists_congr fun x => ?_
  split <;> simp_all

theorem calcBinInfo_some {p : KBin} (h : NoOverflow L p) : ∃ q, calcBinInfo (L := L) p = some q := by
  simp only [calcBinInfo]
  rw [if_neg (by rw [getKBin_none_iff]; exact not_not.2 h)]
  exact ⟨_, rfl⟩

open Classical in
/-- **C35 (field).** After every history, `bin_k_field` returns for each bin the sum of the field over exactly the modes
between the edges of this bin. It leaves the parameters as they were. It needs bin numbers that fit into an `int`, see
`C35_overflow`. -/
theorem C35_field {M : Type} [AddCommMonoid M] {p : KBin} (h : KReach L p) (hb : p.bins ≤ 2 ^ 31)
    (ho : NoOverflow L p) (f : PSite L → M) :
    ∃ q s, binKField p f = some (q, s) ∧ p.Same q ∧ s.length = p.bins ∧
      ∀ b < p.bins, s[b]? = some (∑ x : PSite L, if InEdges p b x then f x else 0) := by
  have hp := h.good
  have h1 : ∃ p', (if p.kAvg.length ≠ p.bins then calcBinInfo (L := L) p else some p) = some p' ∧ p.Same p' := by
    split
    · obtain ⟨q, hq⟩ := calcBinInfo_some ho
      exact ⟨q, hq, calcBinInfo_same hq⟩
    · exact ⟨p, rfl, KBin.Same.refl p⟩
  obtain ⟨p', h1, h2⟩ := h1
  have h3 : ¬ ∃ x : PSite L, getKBin (kNorm x) p' = none := by
    simp only [h2.getKBin]
    rw [getKBin_none_iff]
    exact not_not.2 ho
  refine ⟨p', _, by simp only [binKField]; rw [h1]; dsimp only; rw [if_neg h3], h2, by simp [h2.bins], ?_⟩
  intro b hb'
  rw [List.getElem?_map, List.getElem?_range (h2.bins ▸ hb'), Option.map_some]
  congr 1
  refine Finset.sum_congr rfl fun x _ => ?_
  have := inBin_iff (L := L) (h2.good hp) (h2.bins ▸ hb) x b (h2.bins ▸ hb')
  rw [h2.inEdges] at this
  by_cases hx : InEdges p b x
  · rw [if_pos (this.2 hx), if_pos hx]
  · rw [if_neg (fun h => hx (this.1 h)), if_neg hx]

open Classical in
/-- **C35 (sum over bins).** The bins together hold the sum of the field over all modes below `k_max`. -/
theorem C35_total {M : Type} [AddCommMonoid M] {p : KBin} (h : KReach L p) (hb : p.bins ≤ 2 ^ 31)
    (ho : NoOverflow L p) (f : PSite L → M) :
    ∃ q s, binKField p f = some (q, s) ∧ s.sum = ∑ x : PSite L, if kNorm x < p.max then f x else 0 := by
  obtain ⟨q, s, h1, h2, h3, h4⟩ := C35_field h hb ho f
  refine ⟨q, s, h1, ?_⟩
  have hs : s = (List.range p.bins).map fun b => ∑ x : PSite L, if InEdges p b x then f x else 0 := by
    apply List.ext_getElem?
    intro b
    by_cases hb : b < p.bins
    · rw [h4 b hb, List.getElem?_map, List.getElem?_range hb, Option.map_some]
    · rw [List.getElem?_eq_none (by omega), List.getElem?_eq_none (by simp; omega)]
  rw [hs, ← List.sum_toFinset _ List.nodup_range, Finset.sum_comm]
  refine Finset.sum_congr rfl fun x _ => ?_
  obtain ⟨ha, hb'⟩ := C35_one_bin h x
  by_cases hx : kNorm x < p.max
  · rw [if_pos hx]
    obtain ⟨b, ⟨hb1, hb2⟩, hu⟩ := ha hx
    rw [Finset.sum_eq_single b, if_pos hb2]
    · intro b' hb'' hne
      rw [if_neg]
      intro hc
      exact hne (hu b' ⟨by simpa using hb'', hc⟩)
    · intro hc
      exact absurd (by simpa using hb1) hc
  · rw [if_neg hx]
    refine Finset.sum_eq_zero fun b hb'' => ?_
    rw [if_neg (hb' (not_lt.1 hx) b (by simpa using hb''))]

open Classical in
/-- Number of modes between the edges of a bin. -/
noncomputable def modes (L : Fin n → ℕ) [∀ d, NeZero (L d)] (p : KBin) (b : ℕ) : ℕ :=
  (Finset.univ.filter fun x : PSite L => InEdges p b x).card

open Classical in
/-- Mean length of the momenta between the edges of a bin, if there are any. -/
noncomputable def meanK (L : Fin n → ℕ) [∀ d, NeZero (L d)] (p : KBin) (b : ℕ) : Option ℝ :=
  if modes L p b = 0 then none
  else some ((∑ x ∈ Finset.univ.filter fun x : PSite L => InEdges p b x, kNorm x) / modes L p b)

/-- The answer to a call agrees with parameters `p`. -/
def Agrees (p : KBin) : KOp L → KOut → Prop
  | .set _, _ => True
  | .k i, .k v => v = if 0 ≤ i ∧ i < p.bins then meanK L p i.toNat else some 0
  | .count i, .count c => c = if 0 ≤ i ∧ i < p.bins then modes L p i.toNat else 0
  | .binField f, .field s => s.length = p.bins ∧
      ∀ b < p.bins, s[b]? = some (by classical exact ∑ x : PSite L, if InEdges p b x then f x else 0)
  | _, _ => False

/-- Cached information is absent or right. -/
def Fresh (L : Fin n → ℕ) [∀ d, NeZero (L d)] (p : KBin) : Prop :=
  (p.kAvg = [] ∧ p.binCount = []) ∨
    (p.kAvg = (List.range p.bins).map (meanK L p) ∧ p.binCount = (List.range p.bins).map (modes L p))

omit [∀ d, NeZero (L d)] in
theorem KBin.Same.modes [∀ d, NeZero (L d)] {p q : KBin} (h : p.Same q) : Hila.modes L q = Hila.modes L p := by
  funext b
  unfold Hila.modes
  congr 1
  ext x
  simp [h.inEdges]

theorem KBin.Same.meanK {p q : KBin} (h : p.Same q) : Hila.meanK L q = Hila.meanK L p := by
  funext b
  unfold Hila.meanK
  rw [h.modes]
  congr 3
  refine Finset.sum_congr ?_ fun _ _ => rfl
  ext x
  simp [h.inEdges]

open Classical in
theorem calcBinInfo_right {p q : KBin} (hp : p.Good) (hb : p.bins ≤ 2 ^ 31) (h : calcBinInfo (L := L) p = some q) :
    q.kAvg = (List.range q.bins).map (meanK L q) ∧ q.binCount = (List.range q.bins).map (modes L q) := by
  have hsame := calcBinInfo_same h
  rw [hsame.modes, hsame.meanK, hsame.bins]
  simp only [calcBinInfo] at h
  split at h
  · cases h
  · cases h
    have hc : ∀ b < p.bins, (Finset.univ.filter fun x : PSite L => InBin (getKBin (kNorm x) p) b).card
        = modes L p b := by
      intro b hb'
      unfold modes
      congr 1
      ext x
      simp [inBin_iff hp hb x b hb']
    have hcl : ∀ b ∈ List.range p.bins, b < p.bins := fun b hb' => by simpa using hb'
    constructor
    · apply List.map_congr_left
      intro b hb'
      have hb' := hcl b hb'
      have e1 := hc b hb'
      unfold meanK
      rw [← e1]
      split
      · rfl
      · congr 2
        rw [Finset.sum_filter]
        refine Finset.sum_congr rfl fun x _ => ?_
        have := inBin_iff (L := L) hp hb x b hb'
        by_cases hx : InEdges p b x
        · rw [if_pos (this.2 hx), if_pos hx]
        · rw [if_neg (fun h => hx (this.1 h)), if_neg hx]
    · apply List.map_congr_left
      intro b hb'
      exact hc b (hcl b hb')

theorem kStep_agrees {p : KBin} (hp : p.Good) (hb : p.bins ≤ 2 ^ 31) (ho : NoOverflow L p) (hf : Fresh L p)
    (op : KOp L) (hop : ∀ s, op ≠ .set s) :
    ∃ q o, kStep p op = some (q, o) ∧ p.Same q ∧ Fresh L q ∧ Agrees p op o := by
  obtain ⟨q, hq⟩ := calcBinInfo_some ho
  have hs := calcBinInfo_same hq
  have hr := calcBinInfo_right hp hb hq
  have hlen : 0 < p.bins := hp.bins
  cases op with
  | set s => exact absurd rfl (hop s)
  | k i =>
    have h1 : ∃ p', (if p.kAvg.length = 0 then calcBinInfo (L := L) p else some p) = some p' ∧ p.Same p' ∧
        Fresh L p' ∧ p'.kAvg = (List.range p'.bins).map (meanK L p') := by
      rcases hf with ⟨h1, h2⟩ | ⟨h1, h2⟩
      · exact ⟨q, by rw [if_pos (by simp [h1]), hq], hs, Or.inr hr, hr.1⟩
      · exact ⟨p, by rw [if_neg (by rw [h1]; simp; omega)], KBin.Same.refl p, Or.inr ⟨h1, h2⟩, h1⟩
    obtain ⟨p', h1, h2, h3, h4⟩ := h1
    simp only [kStep, KBin.k, h1]
    by_cases hi : 0 ≤ i ∧ i < p'.bins
    · rw [if_pos hi, h4, List.getElem?_map, List.getElem?_range (by omega), Option.map_some]
      refine ⟨p', _, rfl, h2, h3, ?_⟩
      simp only [Agrees]
      rw [if_pos (h2.bins ▸ hi), h2.meanK]
    · rw [if_neg hi]
      refine ⟨p', _, rfl, h2, h3, ?_⟩
      simp only [Agrees]
      rw [if_neg (h2.bins ▸ hi)]
  | count i =>
    have h1 : ∃ p', (if p.binCount.length = 0 then calcBinInfo (L := L) p else some p) = some p' ∧ p.Same p' ∧
        Fresh L p' ∧ p'.binCount = (List.range p'.bins).map (modes L p') := by
      rcases hf with ⟨h1, h2⟩ | ⟨h1, h2⟩
      · exact ⟨q, by rw [if_pos (by simp [h2]), hq], hs, Or.inr hr, hr.2⟩
      · exact ⟨p, by rw [if_neg (by rw [h2]; simp; omega)], KBin.Same.refl p, Or.inr ⟨h1, h2⟩, h2⟩
    obtain ⟨p', h1, h2, h3, h4⟩ := h1
    simp only [kStep, KBin.count, h1]
    by_cases hi : 0 ≤ i ∧ i < p'.bins
    · rw [if_pos hi, h4, List.getElem?_map, List.getElem?_range (by omega), Option.map_some]
      refine ⟨p', _, rfl, h2, h3, ?_⟩
      simp only [Agrees]
      rw [if_pos (h2.bins ▸ hi), h2.modes]
    · rw [if_neg hi]
      refine ⟨p', _, rfl, h2, h3, ?_⟩
      simp only [Agrees]
      rw [if_neg (h2.bins ▸ hi)]
  | binField f =>
    have h1 : ∃ p', (if p.kAvg.length ≠ p.bins then calcBinInfo (L := L) p else some p) = some p' ∧ p.Same p' ∧
        Fresh L p' := by
      rcases hf with ⟨h1, h2⟩ | ⟨h1, h2⟩
      · exact ⟨q, by rw [if_pos (by simp [h1]; omega), hq], hs, Or.inr hr⟩
      · exact ⟨p, by rw [if_neg (by rw [h1]; simp)], KBin.Same.refl p, Or.inr ⟨h1, h2⟩⟩
    obtain ⟨p', h1, h2, h3⟩ := h1
    have h4 : ¬ ∃ x : PSite L, getKBin (kNorm x) p' = none := by
      simp only [h2.getKBin]
      rw [getKBin_none_iff]
      exact not_not.2 ho
    simp only [kStep, binKField, h1, if_neg h4]
    refine ⟨p', _, rfl, h2, h3, ?_⟩
    simp only [Agrees]
    refine ⟨by simp [h2.bins], fun b hb' => ?_⟩
    rw [List.getElem?_map, List.getElem?_range (h2.bins ▸ hb'), Option.map_some]
    congr 1
    refine Finset.sum_congr rfl fun x _ => ?_
    have := inBin_iff (L := L) (h2.good hp) (h2.bins ▸ hb) x b (h2.bins ▸ hb')
    rw [h2.inEdges] at this
    by_cases hx : InEdges p b x
    · rw [if_pos (this.2 hx), if_pos hx]
    · rw [if_neg (fun h => hx (this.1 h)), if_neg hx]

omit [∀ d, NeZero (L d)] in
theorem KBin.Same.trans {p q r : KBin} (h : p.Same q) (h' : q.Same r) : p.Same r :=
  ⟨h'.1.trans h.1, h'.2.trans h.2, h'.3.trans h.3, h'.4.trans h.4, h'.5.trans h.5, h'.6.trans h.6⟩

theorem Agrees.of_same {p q : KBin} (h : p.Same q) {op : KOp L} {o : KOut} (ha : Agrees q op o) : Agrees p op o := by
  cases op <;> cases o <;> simp only [Agrees] at ha ⊢
  · rwa [h.bins, h.meanK] at ha
  · rwa [h.bins, h.modes] at ha
  · rw [h.bins] at ha
    refine ⟨ha.1, fun b hb => ?_⟩
    rw [ha.2 b hb]
    congr 1
    refine Finset.sum_congr rfl fun x _ => ?_
    have := h.inEdges (L := L) b x
    by_cases hx : InEdges p b x
    · rw [if_pos (this.2 hx), if_pos hx]
    · rw [if_neg (fun h => hx (this.1 h)), if_neg hx]

theorem queries_agree (qs : List (KOp L)) (hq : ∀ op ∈ qs, ∀ s, op ≠ .set s) {p : KBin} (hp : p.Good)
    (hb : p.bins ≤ 2 ^ 31) (ho : NoOverflow L p) (hf : Fresh L p) :
    ∃ q outs, kRun p qs = some (q, outs) ∧ p.Same q ∧ List.Forall₂ (Agrees p) qs outs := by
  induction qs generalizing p with
  | nil => exact ⟨p, [], rfl, KBin.Same.refl p, List.Forall₂.nil⟩
  | cons op qs ih =>
    obtain ⟨q, o, h1, h2, h3, h4⟩ := kStep_agrees hp hb ho hf op (hq op (by simp))
    have ho' : NoOverflow L q := by
      intro x
      rw [h2.max, h2.power, h2.bins]
      exact ho x
    obtain ⟨r, outs, h5, h6, h7⟩ := ih (fun op' h => hq op' (by simp [h])) (h2.good hp) (h2.bins ▸ hb) ho' h3
    refine ⟨r, o :: outs, by simp only [kRun, h1, h5, Option.map_some], h2.trans h6, List.Forall₂.cons h4 ?_⟩
    exact h7.imp fun a b h => Agrees.of_same h2 h

theorem setters_fresh (ss : List KSet) {p q : KBin} {outs : List KOut} (hp : p.kAvg = [] ∧ p.binCount = [])
    (h : kRun (L := L) p (ss.map KOp.set) = some (q, outs)) : q.kAvg = [] ∧ q.binCount = [] := by
  induction ss generalizing p outs with
  | nil => cases h; exact hp
  | cons s ss ih =>
    simp only [List.map_cons, kRun] at h
    split at h
    · cases h
    · rename_i q1 o h1
      simp only [Option.map_eq_some_iff] at h
      obtain ⟨r, h2, h3⟩ := h
      cases h3
      refine ih ?_ h2
      simp only [kStep, Option.map_eq_some_iff] at h1
      obtain ⟨q2, h4, h5⟩ := h1
      cases h5
      cases s <;> simp only [KBin.set] at h4 <;> (repeat' split at h4) <;> cases h4 <;> exact hp

/-- **C35 (queries), part.** If all parameters are set before the first query, every answer (average momentum of a bin,
number of modes in it, sum of a field) is about the modes between the edges given by these parameters. Missing:
histories in which a parameter is changed after a query, for which it is false (`C35_stale`, `C35_out_of_bounds`). -/
theorem C35_queries_partial (p0 : KBin) (h0 : p0 = KBin.init L ∨ ∃ b > 0, p0 = KBin.initBins b) (ss : List KSet)
    {p : KBin} {outs : List KOut} (h : kRun (L := L) p0 (ss.map KOp.set) = some (p, outs)) (hb : p.bins ≤ 2 ^ 31)
    (ho : NoOverflow L p) (qs : List (KOp L)) (hq : ∀ op ∈ qs, ∀ s, op ≠ .set s) :
    ∃ q outs', kRun p qs = some (q, outs') ∧ p.Same q ∧ List.Forall₂ (Agrees p) qs outs' := by
  have hr : KReach L p := ⟨p0, _, outs, h0, h⟩
  refine queries_agree qs hq hr.good hb ho (Or.inl (setters_fresh ss ?_ h))
  rcases h0 with rfl | ⟨b, _, rfl⟩
  · exact ⟨rfl, rfl⟩
  · exact ⟨rfl, rfl⟩

/-- **C35 (width), part.** As long as the number of bins was not set by the user, `binwidth()` is `k_max()/bins()`.
Missing: the other case, see `C35_binwidth_stale`. -/
theorem C35_binwidth_partial {p : KBin} (h : KReach L p) (hs : p.binsSet = false) :
    p.binwidth = p.max / p.bins := by
  have hp := h.good
  have hB : (0 : ℝ) < p.bins := by exact_mod_cast hp.bins
  rw [← hp.width hs]
  field_simp

/-- **C35 (negation, memory).** After a successful query of the counts, increasing the number of bins and asking for the
count of a new bin reads outside the array, for every state. -/
theorem C35_out_of_bounds {p q : KBin} (h : KReach L p) (hf : Fresh L p) (hb : p.bins ≤ 2 ^ 31) (i : ℤ) (c : ℕ)
    (hq : KBin.count L p i = some (q, c)) (m : ℤ) (hm : (p.bins : ℤ) < m) :
    kRun (L := L) q [.set (.bins m), .count (m - 1)] = (none : Option (KBin × List KOut)) := by
  have hp := h.good
  have hlen : 0 < p.bins := hp.bins
  have hlen : q.binCount.length = p.bins := by
    simp only [KBin.count] at hq
    split at hq
    · cases hq
    · rename_i p' hp'
      have h1 : p'.binCount.length = p.bins := by
        split at hp'
        · have hr := calcBinInfo_right hp hb hp'
          rw [hr.2]
          simp [(calcBinInfo_same hp').bins]
        · rename_i hne
          cases hp'
          rcases hf with ⟨_, h2⟩ | ⟨_, h2⟩
          · exact absurd (by simp [h2]) hne
          · simp [h2]
      split at hq
      · split at hq
        · cases hq; exact h1
        · cases hq
      · cases hq; exact h1
  simp only [kRun, kStep, KBin.set]
  rw [if_pos (by omega)]
  dsimp only [Option.map_some]
  have h2 : KBin.count L (⟨q.max, q.power, q.max / m.toNat, m.toNat, q.exact, true, q.kAvg, q.binCount⟩ : KBin) (m - 1)
      = none := by
    simp only [KBin.count]
    rw [if_neg (by omega)]
    dsimp only
    rw [if_pos (by omega), List.getElem?_eq_none (by omega)]
  rw [h2]
  rfl

/-- A count in range is repeated as long as the cached array and the number of bins stay. -/
theorem count_again {p q : KBin} (i : ℤ) (c : ℕ) (hq : KBin.count L p i = some (q, c)) (hi : 0 ≤ i ∧ i < p.bins)
    (q' : KBin) (h1 : q'.binCount = q.binCount) (h2 : q'.bins = q.bins) : KBin.count L q' i = some (q', c) := by
  have hs : p.Same q := by
    rcases kStep_same (L := L) (p := p) (q := q) (op := .count i) (o := .count c) (by simp [kStep, hq]) with ⟨s, h, _⟩ | h
    · cases h
    · exact h
  have hc : q.binCount[i.toNat]? = some c := by
    simp only [KBin.count] at hq
    split at hq
    · cases hq
    · rename_i p' hp'
      split at hq
      · split at hq
        · rename_i v hv
          cases hq
          exact hv
        · cases hq
      · rename_i hn
        cases hq
        exact absurd (hs.bins ▸ hi) hn
  simp only [KBin.count]
  have hne : q'.binCount.length ≠ 0 := by
    intro h0
    rw [h1, List.length_eq_zero_iff] at h0
    rw [h0] at hc
    cases hc
  rw [if_neg hne]
  dsimp only
  rw [if_pos (by rw [h2, hs.bins]; exact hi), h1, hc]

/-! ### A ring of four sites -/

/-- Lattice of one direction with 4 sites. -/
abbrev modeRing : Fin 1 → ℕ := fun _ => 4

theorem kNorm_modeRing (v : ZMod 4) : kNorm (L := modeRing) (fun _ => v) = |(foldCoord 4 v.val : ℝ)| * (Real.pi / 2) := by
  unfold kNorm
  rw [Fin.sum_univ_one, Real.sqrt_sq_eq_abs, ← abs_of_pos (half_pos Real.pi_pos), ← abs_mul]
  congr 1
  push_cast
  ring

theorem site_modeRing (x : PSite modeRing) : ∃ v : ZMod 4, x = fun _ => v :=
  ⟨x 0, by funext d; have : d = 0 := Subsingleton.elim _ _; rw [this]⟩

theorem kNorm_values : kNorm (L := modeRing) (fun _ => (0 : ZMod 4)) = 0 ∧ kNorm (L := modeRing) (fun _ => (1 : ZMod 4)) = Real.pi / 2 ∧
    kNorm (L := modeRing) (fun _ => (2 : ZMod 4)) = Real.pi ∧ kNorm (L := modeRing) (fun _ => (3 : ZMod 4)) = Real.pi / 2 := by
  have v0 : foldCoord 4 (0 : ZMod 4).val = 0 := by decide
  have v1 : foldCoord 4 (1 : ZMod 4).val = 1 := by decide
  have v2 : foldCoord 4 (2 : ZMod 4).val = 2 := by decide
  have v3 : foldCoord 4 (3 : ZMod 4).val = -1 := by decide
  refine ⟨?_, ?_, ?_, ?_⟩ <;> rw [kNorm_modeRing]
  · rw [v0]; simp
  · rw [v1]; simp
  · rw [v2]; simp; ring
  · rw [v3]; simp

theorem kNorm_le_pi (x : PSite modeRing) : kNorm x ≤ Real.pi := by
  obtain ⟨h0, h1, h2, h3⟩ := kNorm_values
  have hp := Real.pi_pos
  obtain ⟨v, rfl⟩ := site_modeRing x
  fin_cases v
  · exact h0.trans_le hp.le
  · exact h1.trans_le (by linarith)
  · exact h2.le
  · exact h3.trans_le (by linarith)

open Classical in
theorem modes_modeRing (p : KBin) (b : ℕ) : modes modeRing p b =
    (if InEdges (L := modeRing) p b (fun _ => (0 : ZMod 4)) then 1 else 0) + (if InEdges (L := modeRing) p b (fun _ => (1 : ZMod 4)) then 1 else 0) +
    (if InEdges (L := modeRing) p b (fun _ => (2 : ZMod 4)) then 1 else 0) + (if InEdges (L := modeRing) p b (fun _ => (3 : ZMod 4)) then 1 else 0) := by
  unfold modes
  rw [Finset.card_filter]
  rw [← (Equiv.funUnique (Fin 1) (ZMod 4)).symm.sum_comp]
  exact Fin.sum_univ_four _

/-- Parameters with power 1. -/
theorem inEdges_one {p : KBin} (hp : p.power = 1) (b : ℕ) (x : PSite L) :
    InEdges p b x ↔ (b : ℝ) / p.bins * p.max ≤ kNorm x ∧ kNorm x < ((b + 1 : ℕ) : ℝ) / p.bins * p.max := by
  unfold InEdges KBin.binMax KBin.binMin
  rw [hp, one_div, inv_one, Real.rpow_one, Real.rpow_one]

theorem noOverflow_modeRing (b : ℕ) (hb : b < 2 ^ 31) : NoOverflow modeRing (KBin.initBins b) := by
  intro x
  have h1 := kNorm_le_pi x
  have h0 := kNorm_nonneg x
  have hb' : (b : ℝ) < 2 ^ 31 := by exact_mod_cast hb
  show (kNorm x / Real.pi) ^ (1 : ℝ) * b < 2 ^ 31
  rw [Real.rpow_one]
  have h2 : kNorm x / Real.pi ≤ 1 := (div_le_one Real.pi_pos).2 h1
  have h3 : (0 : ℝ) ≤ b := Nat.cast_nonneg b
  nlinarith

theorem count_modeRing : ∃ q, KBin.count modeRing (KBin.initBins 2) 1 = some (q, 2) ∧ (KBin.initBins 2).Same q := by
  obtain ⟨q, o, h1, h2, _, h4⟩ := kStep_agrees (L := modeRing) (initBins_good 2 (by omega)) (by decide)
    (noOverflow_modeRing 2 (by norm_num)) (Or.inl ⟨rfl, rfl⟩) (.count 1) (fun s h => by cases h)
  simp only [kStep, Option.map_eq_some_iff] at h1
  obtain ⟨⟨q', c⟩, h5, h6⟩ := h1
  have hq : q' = q := congrArg Prod.fst h6
  have hc : KOut.count c = o := congrArg Prod.snd h6
  subst hq hc
  refine ⟨q', ?_, h2⟩
  rw [h5]
  simp only [Agrees] at h4
  rw [if_pos (by decide)] at h4
  rw [h4]
  obtain ⟨k0, k1, k2, k3⟩ := kNorm_values
  have hp := Real.pi_pos
  show some (q', modes modeRing _ 1) = _
  rw [modes_modeRing]
  have hm : (KBin.initBins 2).max = Real.pi := rfl
  have hbn : (KBin.initBins 2).bins = 2 := rfl
  simp only [inEdges_one (p := KBin.initBins 2) rfl, k0, k1, k2, k3, hm, hbn]
  push_cast
  rw [if_neg (by rintro ⟨h, _⟩; linarith), if_pos ⟨by linarith, by linarith⟩, if_neg (by rintro ⟨_, h⟩; linarith)]

/-- **C35 (negation, stale counts).** On a ring of 4 sites: ask for the number of modes in bin 1 of 2, set `k_max` to
2π, ask again. The second answer is again 2, although one mode only lies between the edges of bin 1. -/
theorem C35_stale : ∃ p outs, kRun (L := modeRing) (KBin.initBins 2) [.count 1, .set (.kMax (2 * Real.pi)), .count 1] =
      some (p, [.count 2, .nothing, .count outs]) ∧ outs = 2 ∧ modes modeRing p 1 = 1 := by
  obtain ⟨q, h1, h2⟩ := count_modeRing
  have hp := Real.pi_pos
  have hb : q.binsSet = true := h2.binsSet
  have h3 := count_again (L := modeRing) 1 2 h1 (by decide)
    ⟨2 * Real.pi, q.power, q.binwidth, q.bins, q.exact, q.binsSet, q.kAvg, q.binCount⟩ rfl rfl
  refine ⟨⟨2 * Real.pi, q.power, q.binwidth, q.bins, q.exact, q.binsSet, q.kAvg, q.binCount⟩, 2, ?_, rfl, ?_⟩
  · simp only [kRun, kStep, KBin.set, h1, Option.map_some]
    rw [if_pos (by linarith : 2 * Real.pi > 0), if_neg (by simp [hb])]
    simp only [Option.map_some, h3]
  · obtain ⟨k0, k1, k2, k3⟩ := kNorm_values
    have hpw : q.power = 1 := h2.power
    have hbn : q.bins = 2 := h2.bins
    have key : ∀ p : KBin, p.power = 1 → p.bins = 2 → p.max = 2 * Real.pi → modes modeRing p 1 = 1 := by
      intro p e1 e2 e3
      rw [modes_modeRing]
      simp only [inEdges_one e1, k0, k1, k2, k3, e2, e3]
      push_cast
      rw [if_neg (by rintro ⟨h, _⟩; linarith), if_neg (by rintro ⟨h, _⟩; linarith), if_pos ⟨by linarith, by linarith⟩]
    exact key _ hpw hbn rfl

/-- **C35 (negation, width).** After `k_binning(b).k_max(m)` the value of `binwidth()` is not `k_max()/bins()`. -/
theorem C35_binwidth_stale (b : ℕ) (hb : 0 < b) (m : ℝ) (hm : 0 < m) (hne : m ≠ Real.pi) :
    ∃ p, (KBin.initBins b).set (.kMax m) = some p ∧ p.max = m ∧ p.bins = b ∧ p.binwidth ≠ p.max / p.bins := by
  refine ⟨⟨m, 1, Real.pi / b, b, 0, true, [], []⟩, by simp [KBin.set, KBin.initBins, hm], rfl, rfl, ?_⟩
  have hB : (b : ℝ) ≠ 0 := by exact_mod_cast hb.ne'
  intro h
  apply hne
  have h' : Real.pi / b = m / b := h
  field_simp at h'
  exact h'.symm

/-- **C35 (negation, conversion).** With `k_binning(10).k_max(1).power(30)` on a ring of 4 sites the bin number of the
largest momentum does not fit into an `int`; binning any field is undefined. -/
theorem C35_overflow (f : PSite modeRing → ℂ) :
    ∃ p, kRun (L := modeRing) (KBin.initBins 10) [.set (.kMax 1), .set (.power 30)] = some (p, [.nothing, .nothing]) ∧
      binKField p f = none := by
  refine ⟨⟨1, 30, Real.pi / (10 : ℕ), 10, 0, true, [], []⟩, by simp [kRun, kStep, KBin.set, KBin.initBins], ?_⟩
  have hx : ∃ x : PSite modeRing, getKBin (kNorm x) ⟨1, 30, Real.pi / (10 : ℕ), 10, 0, true, [], []⟩ = none := by
    refine ⟨fun _ => 2, ?_⟩
    rw [kNorm_values.2.2.1]
    unfold getKBin
    dsimp only
    rw [if_neg]
    rw [not_lt, div_one]
    have h3 : (3 : ℝ) ^ (30 : ℝ) ≤ Real.pi ^ (30 : ℝ) :=
      Real.rpow_le_rpow (by norm_num) Real.pi_gt_three.le (by norm_num)
    have h4 : (3 : ℝ) ^ (30 : ℝ) = 3 ^ 30 := by
      rw [show (30 : ℝ) = ((30 : ℕ) : ℝ) by norm_num, Real.rpow_natCast]
    rw [h4] at h3
    push_cast
    norm_num at h3 ⊢
    linarith
  simp only [binKField]
  rw [if_pos (by simp)]
  simp only [calcBinInfo]
  rw [if_pos hx]

/-! ### Spectral density of real fields -/

/-- A real element of `m` numbers seen as `(m+1)/2` complex numbers (spectraldensity.h:243-268): a cast if `m` is even,
a copy with a zero at the end if `m` is odd. -/
def pseudoComplex (m : ℕ) (f : Site n → ℕ → ℝ) : Site n → ℕ → ℂ := fun c j =>
  ⟨f c (2 * j), if 2 * j + 1 < m then f c (2 * j + 1) else 0⟩

/-- `spectraldensity` of a real field with `m` numbers per site (spectraldensity.h:238-268 with 227-234 and 191-223):
transform and binned squares. The transform is `FFT_field` of the model of fft.h. -/
noncomputable def spectralDensityReal (lay : Layout n) [∀ d, NeZero (lay.L d)] (m : ℕ) (junk : ℕ → ℂ)
    (uninit : ℕ → PBuf ℂ) (order : ℕ → List (Site n)) (p : KBin) (f : Site n → ℕ → ℝ) : Option (KBin × List ℝ) :=
  match fftField lay ((m + 1) / 2) (-1) junk uninit order (fun _ => true) (pseudoComplex m f) with
  | none => none
  | some out => binKField (L := lay.L) p fun x =>
      ∑ e ∈ Finset.range ((m + 1) / 2), Complex.normSq (out (fun d => (x d).val) e)

/-- The coordinates of a site of the torus. -/
def PSite.coords (x : PSite L) : Site n := fun d => (x d).val

theorem foldCoord_neg (l : ℕ) [NeZero l] (v : ZMod l) : (foldCoord l (-v).val) ^ 2 = (foldCoord l v.val) ^ 2 := by
  have hl : 0 < l := Nat.pos_of_ne_zero (NeZero.ne l)
  have hv := ZMod.val_lt v
  rw [ZMod.neg_val]
  split
  · rename_i h
    subst h
    simp
  · rename_i h
    have h0 : v.val ≠ 0 := fun h' => h ((ZMod.val_eq_zero v).1 h')
    unfold foldCoord
    have hc : ((l - v.val : ℕ) : ℤ) = (l : ℤ) - v.val := by omega
    rw [hc]
    by_cases h1 : v.val > l / 2
    · rw [if_pos h1, if_neg (by omega)]
      ring
    · rw [if_neg h1]
      by_cases h2 : l - v.val > l / 2
      · rw [if_pos h2]
        ring
      · rw [if_neg h2]
        have : (l : ℤ) = 2 * v.val := by omega
        rw [this]
        ring

theorem kNorm_neg (x : PSite L) : kNorm (-x) = kNorm x := by
  unfold kNorm
  congr 1
  refine Finset.sum_congr rfl fun d _ => ?_
  have h := foldCoord_neg (L d) (x d)
  have h' : ((foldCoord (L d) (-(x d)).val : ℤ) : ℝ) ^ 2 = ((foldCoord (L d) (x d).val : ℤ) : ℝ) ^ 2 := by
    exact_mod_cast h
  show ((foldCoord (L d) (-(x d)).val : ℝ) * 2 * Real.pi / L d) ^ 2 = _
  calc _ = ((foldCoord (L d) (-(x d)).val : ℤ) : ℝ) ^ 2 * (2 * Real.pi / L d) ^ 2 := by ring
    _ = _ := by rw [h']; ring

open Complex in
theorem ftKernel_neg_torus (l : ℕ) [NeZero l] (v : ZMod l) (x : ℕ) :
    ftKernel (-1) l true (-v).val x = (starRingEnd ℂ) (ftKernel (-1) l true v.val x) := by
  have hl : (l : ℂ) ≠ 0 := by exact_mod_cast NeZero.ne l
  unfold ftKernel
  simp only [if_true]
  rw [← Complex.exp_conj]
  have hconj : (starRingEnd ℂ) (((-1 : ℤ) : ℂ) * (2 * Real.pi * I) * v.val * x / l) =
      (2 * Real.pi * I) * v.val * x / l := by
    simp only [map_div₀, map_mul, map_natCast, Complex.conj_ofReal, Complex.conj_I, map_intCast, map_ofNat]
    push_cast
    ring
  rw [hconj]
  by_cases hv : v = 0
  · subst hv
    simp
  · have h1 : ((-v).val : ℂ) = (l : ℂ) - v.val := by
      rw [ZMod.neg_val, if_neg hv]
      rw [Nat.cast_sub (ZMod.val_lt v).le]
    rw [h1]
    rw [show ((-1 : ℤ) : ℂ) * (2 * Real.pi * I) * ((l : ℂ) - v.val) * x / l =
      (2 * Real.pi * I) * v.val * x / l + ((-(x : ℤ) : ℤ) : ℂ) * (2 * Real.pi * I) by push_cast; field_simp; ring]
    rw [Complex.exp_add, Complex.exp_int_mul_two_pi_mul_I, mul_one]

/-- Transform of a real field at the opposite momentum. -/
theorem ftSpec_neg_torus (f : Site n → ℝ) (k : PSite L) :
    ftSpec L (-1) (fun _ => true) (fun c => (f c : ℂ)) (-k).coords =
      (starRingEnd ℂ) (ftSpec L (-1) (fun _ => true) (fun c => (f c : ℂ)) k.coords) := by
  unfold ftSpec
  rw [map_sum]
  refine Finset.sum_congr rfl fun x _ => ?_
  rw [map_mul, Complex.conj_ofReal, map_prod]
  congr 1
  refine Finset.prod_congr rfl fun d _ => ?_
  exact ftKernel_neg_torus (L d) (k d) (x d)

theorem ftSpec_add_torus (f g : Site n → ℂ) (k : Site n) :
    ftSpec L (-1) (fun _ => true) (fun c => f c + Complex.I * g c) k =
      ftSpec L (-1) (fun _ => true) f k + Complex.I * ftSpec L (-1) (fun _ => true) g k := by
  unfold ftSpec
  rw [Finset.mul_sum, ← Finset.sum_add_distrib]
  refine Finset.sum_congr rfl fun x _ => ?_
  ring

theorem normSq_pair (z w : ℂ) : Complex.normSq (z + Complex.I * w) +
    Complex.normSq ((starRingEnd ℂ) z + Complex.I * (starRingEnd ℂ) w) =
      2 * (Complex.normSq z + Complex.normSq w) := by
  simp only [Complex.normSq_apply, Complex.add_re, Complex.add_im, Complex.mul_re, Complex.mul_im, Complex.I_re,
    Complex.I_im, Complex.conj_re, Complex.conj_im]
  ring

open Classical in
/-- Two real fields packed into one complex field: the binned squares are those of the two fields. -/
theorem bin_pair (p : KBin) (b : ℕ) (f g : Site n → ℝ) :
    (∑ x : PSite L, if InEdges p b x then
      Complex.normSq (ftSpec L (-1) (fun _ => true) (fun c => (f c : ℂ) + Complex.I * (g c : ℂ)) x.coords) else 0) =
    ∑ x : PSite L, if InEdges p b x then
      Complex.normSq (ftSpec L (-1) (fun _ => true) (fun c => (f c : ℂ)) x.coords) +
      Complex.normSq (ftSpec L (-1) (fun _ => true) (fun c => (g c : ℂ)) x.coords) else 0 := by
  have hneg : ∀ h : PSite L → ℝ, (∑ x, h x) = ∑ x, h (-x) := fun h => (Equiv.sum_comp (Equiv.neg (PSite L)) h).symm
  have he : ∀ x : PSite L, InEdges p b (-x) ↔ InEdges p b x := fun x => by unfold InEdges; rw [kNorm_neg]
  have key : ∀ h : PSite L → ℝ, 2 * (∑ x, if InEdges p b x then h x else 0) =
      ∑ x, if InEdges p b x then h x + h (-x) else 0 := by
    intro h
    rw [two_mul]
    nth_rewrite 2 [hneg]
    rw [← Finset.sum_add_distrib]
    refine Finset.sum_congr rfl fun x _ => ?_
    by_cases hx : InEdges p b x
    · rw [if_pos hx, if_pos ((he x).2 hx), if_pos hx]
    · rw [if_neg hx, if_neg (fun h => hx ((he x).1 h)), if_neg hx, add_zero]
  have h2 := key fun x =>
    Complex.normSq (ftSpec L (-1) (fun _ => true) (fun c => (f c : ℂ) + Complex.I * (g c : ℂ)) x.coords)
  refine mul_left_cancel₀ (two_ne_zero : (2 : ℝ) ≠ 0) (h2.trans ?_)
  rw [Finset.mul_sum]
  refine Finset.sum_congr rfl fun x _ => ?_
  by_cases hx : InEdges p b x
  · rw [if_pos hx, if_pos hx]
    simp only [ftSpec_add_torus (L := L) (fun c => (f c : ℂ)) (fun c => (g c : ℂ))]
    rw [ftSpec_neg_torus, ftSpec_neg_torus, normSq_pair]
  · rw [if_neg hx, if_neg hx, mul_zero]

theorem sum_pairs (m : ℕ) (a : ℕ → ℝ) : (∑ e ∈ Finset.range ((m + 1) / 2),
    (a (2 * e) + if 2 * e + 1 < m then a (2 * e + 1) else 0)) = ∑ i ∈ Finset.range m, a i := by
  match m with
  | 0 => simp
  | 1 => simp
  | m + 2 =>
    have h1 : (m + 2 + 1) / 2 = (m + 1) / 2 + 1 := by omega
    rw [h1, Finset.sum_range_succ', Finset.sum_range_succ' _ (m + 1), Finset.sum_range_succ' _ m]
    have h2 := sum_pairs m (fun i => a (i + 2))
    rw [show (∑ k ∈ Finset.range m, a (k + 1 + 1)) = ∑ i ∈ Finset.range m, (fun i => a (i + 2)) i from rfl, ← h2]
    have h3 : ∀ e ∈ Finset.range ((m + 1) / 2), (a (2 * (e + 1)) + if 2 * (e + 1) + 1 < m + 2 then a (2 * (e + 1) + 1) else 0)
        = (fun i => a (i + 2)) (2 * e) + if 2 * e + 1 < m then (fun i => a (i + 2)) (2 * e + 1) else 0 := by
      intro e _
      have e1 : 2 * (e + 1) = 2 * e + 2 := by ring
      have e2 : 2 * e + 2 + 1 = 2 * e + 1 + 2 := by ring
      have e3 : (2 * e + 1 + 2 < m + 2) = (2 * e + 1 < m) := by simp
      rw [e1, e2]
      simp only [e3]
    rw [Finset.sum_congr rfl h3]
    simp
    ring

open Classical in
/-- **C35 (real fields).** The spectral density of a real field of `m` numbers per site, computed by packing pairs of
numbers into complex numbers, is the sum over the numbers of the spectral densities of the separate real fields, for
every division of the lattice over ranks, every history of the bins and odd and even `m`. -/
theorem C35_real_field (lay : Layout n) [∀ d, NeZero (lay.L d)] (hw : lay.WF) (hne : NoEmptyRank lay) (hn : 0 < n) (m : ℕ)
    (junk : ℕ → ℂ) (uninit : ℕ → PBuf ℂ) (order : ℕ → List (Site n)) (hor : Order lay .all order)
    {p : KBin} (h : KReach lay.L p) (hb : p.bins ≤ 2 ^ 31) (ho : NoOverflow lay.L p) (f : Site n → ℕ → ℝ) :
    ∃ q s, spectralDensityReal lay m junk uninit order p f = some (q, s) ∧ s.length = p.bins ∧
      ∀ b < p.bins, s[b]? = some (∑ i ∈ Finset.range m, ∑ x : PSite lay.L, if InEdges p b x then
        Complex.normSq (ftSpec lay.L (-1) (fun _ => true) (fun c => (f c i : ℂ)) x.coords) else 0) := by
  obtain ⟨out, h1, h2⟩ := C17_fft_partial lay hw hne ((m + 1) / 2) (-1) junk uninit order hor (fun _ => true)
    ⟨⟨0, hn⟩, rfl⟩ (pseudoComplex m f)
  obtain ⟨q, s, h3, h4, h5, h6⟩ := C35_field h hb ho fun x =>
    ∑ e ∈ Finset.range ((m + 1) / 2), Complex.normSq (out (fun d => (x d).val) e)
  refine ⟨q, s, by unfold spectralDensityReal; rw [h1]; exact h3, h5, fun b hb' => ?_⟩
  rw [h6 b hb', ← sum_pairs]
  congr 1
  have e1 : ∀ x : PSite lay.L, (if InEdges p b x then
      ∑ e ∈ Finset.range ((m + 1) / 2), Complex.normSq (out (fun d => (x d).val) e) else 0) =
      ∑ e ∈ Finset.range ((m + 1) / 2), if InEdges p b x then Complex.normSq (ftSpec lay.L (-1) (fun _ => true)
        (fun c => (f c (2 * e) : ℂ) + Complex.I * ((if 2 * e + 1 < m then f c (2 * e + 1) else 0 : ℝ) : ℂ)) x.coords) else 0 := by
    intro x
    by_cases hx : InEdges p b x
    · simp only [if_pos hx]
      refine Finset.sum_congr rfl fun e he => ?_
      rw [h2 _ (fun d => ZMod.val_lt (x d)) e (by simpa using he)]
      congr 2
      funext c
      unfold pseudoComplex
      apply Complex.ext <;> simp
    · simp only [if_neg hx]
      simp
  simp only [e1]
  rw [Finset.sum_comm]
  refine Finset.sum_congr rfl fun e _ => ?_
  rw [bin_pair (L := lay.L) p b (fun c => f c (2 * e)) (fun c => if 2 * e + 1 < m then f c (2 * e + 1) else 0)]
  have e2 : ∀ x : PSite lay.L, (if InEdges p b x then
      Complex.normSq (ftSpec lay.L (-1) (fun _ => true) (fun c => ((f c (2 * e) : ℝ) : ℂ)) x.coords) +
      Complex.normSq (ftSpec lay.L (-1) (fun _ => true)
        (fun c => ((if 2 * e + 1 < m then f c (2 * e + 1) else 0 : ℝ) : ℂ)) x.coords) else 0) =
      (if InEdges p b x then
        Complex.normSq (ftSpec lay.L (-1) (fun _ => true) (fun c => ((f c (2 * e) : ℝ) : ℂ)) x.coords) else 0) +
      (if InEdges p b x then Complex.normSq (ftSpec lay.L (-1) (fun _ => true)
        (fun c => ((if 2 * e + 1 < m then f c (2 * e + 1) else 0 : ℝ) : ℂ)) x.coords) else 0) := by
    intro x
    by_cases hx : InEdges p b x
    · simp only [if_pos hx]
    · simp only [if_neg hx, add_zero]
  simp only [e2]
  rw [Finset.sum_add_distrib]
  congr 1
  by_cases hm : 2 * e + 1 < m
  · simp only [if_pos hm]
  · simp only [if_neg hm, Complex.ofReal_zero]
    refine Finset.sum_eq_zero fun x _ => ?_
    have : ftSpec lay.L (-1) (fun _ => true) (fun _ => (0 : ℂ)) x.coords = 0 := by
      unfold ftSpec
      simp
    rw [this]
    simp

/-! ### The hypotheses are met -/

/-- A state after setters and queries on the ring of 4 sites. -/
theorem reach_modeRing : KReach modeRing (KBin.initBins 2) := ⟨_, [], [], Or.inr ⟨2, by omega, rfl⟩, rfl⟩

example (f : PSite modeRing → ℂ) : ∃ q s, binKField (KBin.initBins 2) f = some (q, s) ∧ s.length = 2 := by
  obtain ⟨q, s, h1, _, h3, _⟩ := C35_field reach_modeRing (by decide) (noOverflow_modeRing 2 (by norm_num)) f
  exact ⟨q, s, h1, h3⟩

example : ∃! b, b < 2 ∧ InEdges (L := modeRing) (KBin.initBins 2) b (fun _ => (1 : ZMod 4)) :=
  (C35_one_bin reach_modeRing _).1 (by rw [kNorm_values.2.1]; exact half_lt_self Real.pi_pos)

example (f : PSite modeRing → ℂ) : ∃ q s, binKField (KBin.initBins 2) f = some (q, s) ∧
    s.sum = f (fun _ => (0 : ZMod 4)) + f (fun _ => (1 : ZMod 4)) + f (fun _ => (3 : ZMod 4)) := by
  obtain ⟨q, s, h1, h2⟩ := C35_total reach_modeRing (by decide) (noOverflow_modeRing 2 (by norm_num)) f
  refine ⟨q, s, h1, h2.trans ?_⟩
  rw [← (Equiv.funUnique (Fin 1) (ZMod 4)).symm.sum_comp]
  refine (Fin.sum_univ_four _).trans ?_
  obtain ⟨k0, k1, k2, k3⟩ := kNorm_values
  have hp := Real.pi_pos
  show (if kNorm (L := modeRing) (fun _ => (0 : ZMod 4)) < Real.pi then f (fun _ => (0 : ZMod 4)) else 0) +
    (if kNorm (L := modeRing) (fun _ => (1 : ZMod 4)) < Real.pi then f (fun _ => (1 : ZMod 4)) else 0) +
    (if kNorm (L := modeRing) (fun _ => (2 : ZMod 4)) < Real.pi then f (fun _ => (2 : ZMod 4)) else 0) +
    (if kNorm (L := modeRing) (fun _ => (3 : ZMod 4)) < Real.pi then f (fun _ => (3 : ZMod 4)) else 0) = _
  rw [k0, k1, k2, k3, if_pos hp, if_pos (half_lt_self hp), if_neg (lt_irrefl _), if_pos (half_lt_self hp), add_zero]

example : ∃ p outs, kRun (L := modeRing) (KBin.initBins 2) ([KSet.bins 3, KSet.exactBins 1].map KOp.set) = some (p, outs) ∧
    p.bins = 3 := ⟨_, _, rfl, rfl⟩

example : ∃ q, KBin.count modeRing (KBin.initBins 2) 1 = some (q, 2) ∧
    kRun (L := modeRing) q [.set (.bins 3), .count 2] = none := by
  obtain ⟨q, h1, h2⟩ := count_modeRing
  exact ⟨q, h1, C35_out_of_bounds reach_modeRing (Or.inl ⟨rfl, rfl⟩) (by decide) 1 2 h1 3 (by decide)⟩

example : (KBin.init modeRing).binwidth = (KBin.init modeRing).max / (KBin.init modeRing).bins :=
  C35_binwidth_partial (L := modeRing) ⟨_, [], [], Or.inl rfl, rfl⟩ rfl

end Hila
