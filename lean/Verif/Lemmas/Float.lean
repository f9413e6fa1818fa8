import Verif.Model.Extended
import Mathlib.Tactic.Positivity
import Mathlib.Tactic.Ring
import Mathlib.Tactic.Linarith
import Mathlib.Tactic.NormNum
import Mathlib.Tactic.FieldSimp
import Mathlib.Tactic.Set

/-! # Rounding in binary floating point formats -/

namespace Hila

/-! ## Grids -/

variable {F : FFormat}

/-- Multiples of a power of 2. -/
def OnGrid (e : ℤ) (x : ℝ) : Prop := ∃ k : ℤ, x = k * (2 : ℝ) ^ e

theorem two_zpow_pos (e : ℤ) : (0 : ℝ) < 2 ^ e := zpow_pos two_pos e

theorem OnGrid.mono {e e' : ℤ} (h : e' ≤ e) {x : ℝ} (hx : OnGrid e x) : OnGrid e' x := by
  obtain ⟨k, rfl⟩ := hx
  obtain ⟨j, hj⟩ := Int.eq_ofNat_of_zero_le (sub_nonneg.2 h)
  refine ⟨k * 2 ^ j, ?_⟩
  have : e = j + e' := by omega
  rw [this, zpow_add₀ two_ne_zero, zpow_natCast]
  push_cast
  ring

theorem OnGrid.add {e : ℤ} {x y : ℝ} (hx : OnGrid e x) (hy : OnGrid e y) : OnGrid e (x + y) := by
  obtain ⟨k, rfl⟩ := hx
  obtain ⟨l, rfl⟩ := hy
  exact ⟨k + l, by push_cast; ring⟩

theorem OnGrid.neg {e : ℤ} {x : ℝ} (hx : OnGrid e x) : OnGrid e (-x) := by
  obtain ⟨k, rfl⟩ := hx
  exact ⟨-k, by push_cast; ring⟩

theorem OnGrid.sub {e : ℤ} {x y : ℝ} (hx : OnGrid e x) (hy : OnGrid e y) : OnGrid e (x - y) := by
  rw [sub_eq_add_neg]; exact hx.add hy.neg

/-- A multiple of `2^e` of size below `N + 1` grid spacings has size at most `N` spacings. -/
theorem OnGrid.le_of_lt {e : ℤ} {x : ℝ} (hx : OnGrid e x) (N : ℤ) (h : |x| < (N + 1) * (2 : ℝ) ^ e) :
    |x| ≤ N * (2 : ℝ) ^ e := by
  obtain ⟨k, rfl⟩ := hx
  have hp := two_zpow_pos e
  rw [abs_mul, abs_of_pos hp] at h ⊢
  have h1 := lt_of_mul_lt_mul_right h hp.le
  have h2 : |k| < N + 1 := by
    have : ((|k| : ℤ) : ℝ) < ((N + 1 : ℤ) : ℝ) := by push_cast; exact h1
    exact_mod_cast this
  have h3 : (|(k : ℝ)|) ≤ N := by
    have : ((|k| : ℤ) : ℝ) ≤ ((N : ℤ) : ℝ) := by exact_mod_cast (by omega : |k| ≤ N)
    push_cast at this
    exact this
  exact mul_le_mul_of_nonneg_right h3 hp.le

theorem mem_of_grid {e : ℤ} {x : ℝ} (hx : OnGrid e x) (he : F.emin ≤ e) (h : |x| ≤ (2 : ℝ) ^ F.p * (2 : ℝ) ^ e) :
    F.Mem x := by
  obtain ⟨k, rfl⟩ := hx
  refine ⟨k, e, ?_, he, rfl⟩
  have hp := two_zpow_pos e
  rw [abs_mul, abs_of_pos hp] at h
  have h1 := le_of_mul_le_mul_right h hp
  have : ((|k| : ℤ) : ℝ) ≤ ((2 ^ F.p : ℤ) : ℝ) := by push_cast; exact h1
  exact_mod_cast this

theorem FFormat.Mem.grid {x : ℝ} (h : F.Mem x) : OnGrid F.emin x := by
  obtain ⟨m, e, _, he, rfl⟩ := h
  exact OnGrid.mono he ⟨m, rfl⟩

theorem FFormat.Mem.rep {x : ℝ} (h : F.Mem x) : ∃ e, F.emin ≤ e ∧ OnGrid e x ∧ |x| ≤ (2 : ℝ) ^ F.p * (2 : ℝ) ^ e := by
  obtain ⟨m, e, hm, he, rfl⟩ := h
  refine ⟨e, he, ⟨m, rfl⟩, ?_⟩
  have hp := two_zpow_pos e
  rw [abs_mul, abs_of_pos hp]
  refine mul_le_mul_of_nonneg_right ?_ hp.le
  have : ((|m| : ℤ) : ℝ) ≤ ((2 ^ F.p : ℤ) : ℝ) := by exact_mod_cast hm
  push_cast at this
  exact this

theorem FFormat.Mem.neg {x : ℝ} (h : F.Mem x) : F.Mem (-x) := by
  obtain ⟨m, e, hm, he, rfl⟩ := h
  exact ⟨-m, e, by rwa [abs_neg], he, by push_cast; ring⟩

theorem mem_zero : F.Mem 0 := ⟨0, F.emin, by rw [abs_zero]; positivity, le_refl _, by simp⟩

/-- Large numbers of the format are on a coarse grid. -/
theorem FFormat.Mem.grid_of_le {y : ℝ} (h : F.Mem y) {e : ℤ} (hy : (2 : ℝ) ^ F.p * (2 : ℝ) ^ e ≤ |y|) : OnGrid e y := by
  obtain ⟨e', _, hg, hle⟩ := h.rep
  have hpp : (0 : ℝ) < 2 ^ F.p := by positivity
  have h1 : (2 : ℝ) ^ e ≤ (2 : ℝ) ^ e' := le_of_mul_le_mul_left (hy.trans hle) hpp
  exact hg.mono ((zpow_le_zpow_iff_right₀ one_lt_two).1 h1)

theorem FFormat.Mem.grid_of_lt {y : ℝ} (h : F.Mem y) {e : ℤ} (hy : (2 : ℝ) ^ F.p * (2 : ℝ) ^ e < |y|) :
    OnGrid (e + 1) y := by
  obtain ⟨e', _, hg, hle⟩ := h.rep
  have hpp : (0 : ℝ) < 2 ^ F.p := by positivity
  have h1 : (2 : ℝ) ^ e < (2 : ℝ) ^ e' := lt_of_mul_lt_mul_left (hy.trans_le hle) hpp.le
  exact hg.mono ((zpow_lt_zpow_iff_right₀ one_lt_two).1 h1)

theorem mem_pow {e : ℤ} (he : F.emin ≤ e) : F.Mem ((2 : ℝ) ^ F.p * (2 : ℝ) ^ e) :=
  mem_of_grid ⟨2 ^ F.p, by push_cast; rfl⟩ he (by rw [abs_of_pos (by positivity)])

/-! ## Rounding -/

variable (R : Rounding F)

theorem Rounding.fl_exact {x : ℝ} (h : F.Mem x) : R.fl x = x := by
  have := R.near x x h
  rw [sub_self, abs_zero] at this
  exact sub_eq_zero.1 (abs_eq_zero.1 (le_antisymm this (abs_nonneg _)))

theorem Rounding.fl_ge {x z : ℝ} (hz : F.Mem z) (h : |z| ≤ |x|) : |z| ≤ |R.fl x| := by
  have key : ∀ w, F.Mem w → |w - x| = |x| - |z| → |z| ≤ |R.fl x| := by
    intro w hw he
    have h1 := R.near x w hw
    rw [he] at h1
    have h2 := abs_sub_abs_le_abs_sub x (R.fl x)
    rw [abs_sub_comm] at h2
    linarith
  rcases le_total 0 x with hx | hx
  · have hw : F.Mem |z| := by
      rcases abs_choice z with h' | h' <;> rw [h']
      · exact hz
      · exact hz.neg
    refine key _ hw ?_
    rw [abs_sub_comm, abs_of_nonneg hx] at *
    rw [abs_of_nonneg (by linarith)]
  · have hw : F.Mem (-|z|) := by
      rcases abs_choice z with h' | h' <;> rw [h']
      · exact hz.neg
      · rw [neg_neg]; exact hz
    refine key _ hw ?_
    rw [abs_of_nonpos hx] at *
    rw [abs_of_nonneg (by linarith)]
    ring

theorem Rounding.near_grid {x : ℝ} {e : ℤ} (he : F.emin ≤ e) (h : |x| ≤ (2 : ℝ) ^ F.p * (2 : ℝ) ^ e) :
    |R.fl x - x| ≤ (2 : ℝ) ^ e / 2 := by
  have hp := two_zpow_pos e
  set k := round (x / (2 : ℝ) ^ e) with hk
  have h1 : |x / (2 : ℝ) ^ e - k| ≤ 1 / 2 := abs_sub_round _
  have h2 : |(k : ℝ) * 2 ^ e - x| ≤ 2 ^ e / 2 := by
    have : (k : ℝ) * 2 ^ e - x = -(x / (2 : ℝ) ^ e - k) * 2 ^ e := by field_simp; ring
    rw [this, abs_mul, abs_neg, abs_of_pos hp]
    nlinarith
  refine (R.near x _ (mem_of_grid ⟨k, rfl⟩ he ?_)).trans h2
  -- the rounded coefficient is at most `2^p`
  have h3 : |(k : ℝ) * 2 ^ e| ≤ |x| + 2 ^ e / 2 := by
    have := abs_sub_abs_le_abs_sub ((k : ℝ) * 2 ^ e) x
    linarith
  have h4 : |(k : ℝ) * 2 ^ e| < (((2 ^ F.p : ℤ) : ℝ) + 1) * 2 ^ e := by
    push_cast
    nlinarith
  have h5 := OnGrid.le_of_lt (e := e) ⟨k, rfl⟩ (2 ^ F.p) h4
  push_cast at h5
  exact h5

theorem Rounding.fl_grid {x : ℝ} {e : ℤ} (he : F.emin ≤ e) (hx : OnGrid e x) : OnGrid e (R.fl x) := by
  by_cases h : |x| ≤ (2 : ℝ) ^ F.p * (2 : ℝ) ^ e
  · rw [R.fl_exact (mem_of_grid hx he h)]
    exact hx
  · have hz := mem_pow (F := F) he
    have h1 := R.fl_ge (x := x) hz (by rw [abs_of_pos (by positivity)]; exact (not_le.1 h).le)
    rw [abs_of_pos (by positivity)] at h1
    exact (R.mem x).grid_of_le h1

/-- Rounded sums of floating point numbers have small relative error. -/
theorem Rounding.rel {x : ℝ} (hx : OnGrid F.emin x) : |R.fl x - x| ≤ |x| / 2 ^ F.p := by
  by_cases h : |x| ≤ (2 : ℝ) ^ F.p * (2 : ℝ) ^ F.emin
  · rw [R.fl_exact (mem_of_grid hx (le_refl _) h), sub_self, abs_zero]
    positivity
  · have hx0 : 0 < |x| := lt_of_le_of_lt (by positivity) (not_le.1 h)
    obtain ⟨m, hm1, hm2⟩ := exists_mem_Ioc_zpow hx0 (one_lt_two : (1 : ℝ) < 2)
    have e1 : (2 : ℝ) ^ (m + 1) = 2 ^ F.p * 2 ^ (m + 1 - F.p) := by
      rw [← zpow_natCast, ← zpow_add₀ two_ne_zero]
      congr 1
      ring
    have hle : F.emin ≤ m + 1 - F.p := by
      have h1 : (2 : ℝ) ^ F.p * 2 ^ F.emin < 2 ^ F.p * 2 ^ (m + 1 - F.p) := by
        rw [← e1]; exact lt_of_lt_of_le (not_le.1 h) hm2
      have h2 := lt_of_mul_lt_mul_left h1 (by positivity)
      exact ((zpow_lt_zpow_iff_right₀ one_lt_two).1 h2).le
    refine (R.near_grid hle (e1 ▸ hm2)).trans ?_
    rw [le_div_iff₀ (by positivity)]
    have e2 : (2 : ℝ) ^ (m + 1) = 2 ^ m * 2 := zpow_add_one₀ two_ne_zero m
    have : (2 : ℝ) ^ (m + 1 - F.p) / 2 * 2 ^ F.p = 2 ^ m := by
      rw [div_mul_eq_mul_div, mul_comm, ← e1, e2]
      ring
    rw [this]
    exact hm1.le

/-- The error of a rounded sum is a number of the format. -/
theorem Rounding.err_mem {a b : ℝ} (ha : F.Mem a) (hb : F.Mem b) : F.Mem (a + b - R.fl (a + b)) := by
  obtain ⟨ea, ha1, ha2, ha3⟩ := ha.rep
  obtain ⟨eb, hb1, hb2, hb3⟩ := hb.rep
  have hA : |a + b - R.fl (a + b)| ≤ |b| := by
    have := R.near (a + b) a ha
    rw [abs_sub_comm] at this
    refine this.trans (le_of_eq ?_)
    rw [show a - (a + b) = -b by ring, abs_neg]
  have hB : |a + b - R.fl (a + b)| ≤ |a| := by
    have := R.near (a + b) b hb
    rw [abs_sub_comm] at this
    refine this.trans (le_of_eq ?_)
    rw [show b - (a + b) = -a by ring, abs_neg]
  rcases le_total ea eb with h | h
  · have hg : OnGrid ea (a + b) := ha2.add (hb2.mono h)
    exact mem_of_grid (hg.sub (R.fl_grid ha1 hg)) ha1 (hB.trans ha3)
  · have hg : OnGrid eb (a + b) := (ha2.mono h).add hb2
    exact mem_of_grid (hg.sub (R.fl_grid hb1 hg)) hb1 (hA.trans hb3)

/-- Larger numbers have a representation with at least the exponent of smaller ones. -/
theorem rep_pair {a b : ℝ} (ha : F.Mem a) (hb : F.Mem b) (h : |b| ≤ |a|) :
    ∃ e, F.emin ≤ e ∧ OnGrid e a ∧ OnGrid e b ∧ |b| ≤ (2 : ℝ) ^ F.p * (2 : ℝ) ^ e := by
  obtain ⟨ea, ha1, ha2, ha3⟩ := ha.rep
  obtain ⟨eb, hb1, hb2, hb3⟩ := hb.rep
  rcases le_total eb ea with h' | h'
  · exact ⟨eb, hb1, ha2.mono h', hb2, hb3⟩
  · exact ⟨ea, ha1, ha2, hb2.mono h', h.trans ha3⟩

/-- The difference of the larger term and the rounded sum is a number of the format. -/
theorem Rounding.diff_mem (hp1 : 1 ≤ F.p) {a b : ℝ} (ha : F.Mem a) (hb : F.Mem b) (h : |b| ≤ |a|) :
    F.Mem (a - R.fl (a + b)) := by
  obtain ⟨e, he, ga, gb, hbe⟩ := rep_pair ha hb h
  by_cases hs : |a + b| ≤ (2 : ℝ) ^ F.p * (2 : ℝ) ^ e
  · rw [R.fl_exact (mem_of_grid (ga.add gb) he hs), show a - (a + b) = -b by ring]
    exact hb.neg
  · have hx0 : 0 < |a + b| := lt_of_le_of_lt (by positivity) (not_le.1 hs)
    obtain ⟨m, hm1, hm2⟩ := exists_mem_Ioc_zpow hx0 (one_lt_two : (1 : ℝ) < 2)
    -- `u` is the spacing below the sum
    obtain ⟨u, hu⟩ : ∃ u : ℤ, u = m - F.p := ⟨_, rfl⟩
    have hpp : (0 : ℝ) < 2 ^ F.p := by positivity
    have e0 : (2 : ℝ) ^ m = 2 ^ F.p * 2 ^ u := by
      rw [← zpow_natCast, ← zpow_add₀ two_ne_zero, hu]
      congr 1
      ring
    have e1 : (2 : ℝ) ^ (m + 1) = 2 ^ F.p * 2 ^ (u + 1) := by
      rw [← zpow_natCast, ← zpow_add₀ two_ne_zero, hu]
      congr 1
      ring
    have e2 : (2 : ℝ) ^ (u + 1) = 2 ^ u * 2 := zpow_add_one₀ two_ne_zero u
    have e3 : (2 : ℝ) ^ u = 2 ^ (u - 1) * 2 := by
      rw [← zpow_add_one₀ two_ne_zero]; congr 1; ring
    rw [e0] at hm1
    rw [e1] at hm2
    have heu : e ≤ u := by
      have h1 : (2 : ℝ) ^ F.p * 2 ^ e < 2 ^ F.p * 2 ^ (u + 1) := lt_of_lt_of_le (not_le.1 hs) hm2
      have h2 := lt_of_mul_lt_mul_left h1 hpp.le
      have := (zpow_lt_zpow_iff_right₀ (one_lt_two : (1 : ℝ) < 2)).1 h2
      omega
    have hup := two_zpow_pos u
    have herr : |R.fl (a + b) - (a + b)| ≤ 2 ^ u := by
      have := R.near_grid (x := a + b) (e := u + 1) (by omega) hm2
      rw [e2] at this
      linarith
    have hbu : |b| ≤ (2 : ℝ) ^ F.p * (2 : ℝ) ^ u :=
      hbe.trans (mul_le_mul_of_nonneg_left (zpow_le_zpow_right₀ one_lt_two.le heu) hpp.le)
    -- the sum and `a` are on the grid of spacing `2^u`
    have gt : OnGrid u (R.fl (a + b)) := by
      have h1 := R.fl_ge (x := a + b) (mem_pow (F := F) (he.trans heu))
        (by rw [abs_of_pos (by positivity)]; exact hm1.le)
      rw [abs_of_pos (by positivity)] at h1
      exact (R.mem _).grid_of_le h1
    have hab : |a + b| ≤ |a| + |b| := abs_add_le a b
    have gau : OnGrid u a := by
      have h1 : (2 : ℝ) ^ F.p * 2 ^ (u - 1) < |a| := by
        have : (2 : ℝ) ^ F.p * 2 ^ u = 2 ^ F.p * 2 ^ (u - 1) * 2 := by rw [e3]; ring
        linarith
      have := ha.grid_of_lt h1
      rwa [sub_add_cancel] at this
    have hd : |a - R.fl (a + b)| ≤ |b| + 2 ^ u := by
      have h1 : a - R.fl (a + b) = -(R.fl (a + b) - (a + b)) + -b := by ring
      rw [h1]
      refine (abs_add_le _ _).trans ?_
      rw [abs_neg, abs_neg]
      linarith
    rcases lt_or_eq_of_le hbu with hlt | heq
    · have h1 : |a - R.fl (a + b)| < (((2 ^ F.p : ℤ) : ℝ) + 1) * 2 ^ u := by
        push_cast
        nlinarith
      have h2 := (gau.sub gt).le_of_lt _ h1
      push_cast at h2
      exact mem_of_grid (gau.sub gt) (he.trans heu) h2
    · -- `b` is a power of 2 as large as the grid allows: the sum is exact
      have gb' : OnGrid (u + 1) b := by
        have h2 : (2 : ℝ) ^ F.p = 2 * 2 ^ (F.p - 1) := by
          rw [← pow_succ', Nat.sub_add_cancel hp1]
        rcases abs_choice b with h' | h'
        · refine ⟨2 ^ (F.p - 1), ?_⟩
          rw [h'] at heq
          rw [heq, e2, h2]
          push_cast
          ring
        · refine ⟨-2 ^ (F.p - 1), ?_⟩
          rw [h'] at heq
          rw [← neg_neg b, heq, e2, h2]
          push_cast
          ring
      have hex : R.fl (a + b) = a + b := by
        rcases lt_or_eq_of_le (heq ▸ h) with h1 | h1
        · exact R.fl_exact (mem_of_grid ((ha.grid_of_lt h1).add gb') (by omega) hm2)
        · -- then `|a| = |b|`
          have hab' : |a| = |b| := by rw [← h1, heq]
          rcases abs_eq_abs.1 hab' with h2 | h2
          · have ga' : OnGrid (u + 1) a := h2 ▸ gb'
            exact R.fl_exact (mem_of_grid (ga'.add gb') (by omega) hm2)
          · exfalso
            rw [h2, neg_add_cancel, abs_zero] at hx0
            exact lt_irrefl _ hx0
      rw [hex, show a - (a + b) = -b by ring]
      exact hb.neg

/-- The correction computed by the program is the error of the sum. -/
theorem Rounding.err_eq (hp1 : 1 ≤ F.p) {a b : ℝ} (ha : F.Mem a) (hb : F.Mem b) :
    R.err a b (R.fl (a + b)) = a + b - R.fl (a + b) := by
  unfold Rounding.err
  split
  · rename_i h
    rw [R.fl_exact (R.diff_mem hp1 ha hb h), show a - R.fl (a + b) + b = a + b - R.fl (a + b) by ring,
      R.fl_exact (R.err_mem ha hb)]
  · rename_i h
    have h' : |a| ≤ |b| := (not_le.1 h).le
    have h1 := R.diff_mem hp1 hb ha h'
    rw [add_comm b a] at h1
    rw [R.fl_exact h1, show b - R.fl (a + b) + a = a + b - R.fl (a + b) by ring, R.fl_exact (R.err_mem ha hb)]

/-- Rounded sums keep their sign. -/
theorem Rounding.sign (hp1 : 1 ≤ F.p) {x : ℝ} (hx : OnGrid F.emin x) :
    (0 < x → 0 < R.fl x) ∧ (x < 0 → R.fl x < 0) ∧ (x = 0 → R.fl x = 0) := by
  have h := R.rel hx
  have h2 : (2 : ℝ) ≤ 2 ^ F.p := by
    calc (2 : ℝ) = 2 ^ 1 := (pow_one 2).symm
      _ ≤ 2 ^ F.p := pow_le_pow_right₀ one_lt_two.le hp1
  have h3 : |x| / 2 ^ F.p ≤ |x| / 2 := div_le_div_of_nonneg_left (abs_nonneg x) two_pos h2
  have h4 := abs_le.1 (h.trans h3)
  refine ⟨fun hp => ?_, fun hn => ?_, fun h0 => ?_⟩
  · rw [abs_of_pos hp] at h4
    linarith [h4.1]
  · rw [abs_of_neg hn] at h4
    linarith [h4.2]
  · rw [h0]
    exact R.fl_exact mem_zero

/-- A small term is lost in a sum. -/
theorem Rounding.absorb {x y : ℝ} (hx : F.Mem x) {e : ℤ} (he : F.emin ≤ e) (hg : OnGrid e x)
    (hbig : (2 : ℝ) ^ F.p * 2 ^ e ≤ |x + y|) (hy : 2 * |y| < 2 ^ e) : R.fl (x + y) = x := by
  have h1 := R.fl_ge (x := x + y) (mem_pow (F := F) he) (by rw [abs_of_pos (by positivity)]; exact hbig)
  rw [abs_of_pos (by positivity)] at h1
  have g := ((R.mem (x + y)).grid_of_le h1).sub hg
  have h2 := R.near (x + y) x hx
  rw [show x - (x + y) = -y by ring, abs_neg] at h2
  have h3 : |R.fl (x + y) - x| < ((0 : ℤ) + 1) * (2 : ℝ) ^ e := by
    have : R.fl (x + y) - x = (R.fl (x + y) - (x + y)) + y := by ring
    rw [this]
    refine (abs_add_le _ _).trans_lt ?_
    push_cast
    linarith
  have h4 := g.le_of_lt 0 h3
  push_cast at h4
  rw [zero_mul] at h4
  exact sub_eq_zero.1 (abs_eq_zero.1 (le_antisymm h4 (abs_nonneg _)))

/-- Every number has a nearest number of the format. -/
theorem nearest_exists (hp1 : 1 ≤ F.p) (x : ℝ) : ∃ y, F.Mem y ∧ ∀ z, F.Mem z → |y - x| ≤ |z - x| := by
  by_cases hx : x = 0
  · exact ⟨0, mem_zero, fun z _ => by rw [hx, sub_zero, abs_zero]; exact abs_nonneg _⟩
  · have hx0 : 0 < |x| := abs_pos.2 hx
    obtain ⟨m, hm1, hm2⟩ := exists_mem_Ioc_zpow hx0 (one_lt_two : (1 : ℝ) < 2)
    obtain ⟨e, hee⟩ : ∃ e : ℤ, e = max F.emin (m + 1 - F.p) := ⟨_, rfl⟩
    have he : F.emin ≤ e := hee ▸ le_max_left _ _
    have he' : m + 1 - F.p ≤ e := hee ▸ le_max_right _ _
    have hpos := two_zpow_pos e
    have hxe : |x| ≤ 2 ^ F.p * 2 ^ e := by
      refine hm2.trans ?_
      rw [← zpow_natCast, ← zpow_add₀ two_ne_zero]
      exact zpow_le_zpow_right₀ one_lt_two.le (by omega)
    set k := round (x / (2 : ℝ) ^ e) with hk
    have hnear : ∀ z, OnGrid e z → |(k : ℝ) * 2 ^ e - x| ≤ |z - x| := by
      rintro z ⟨l, rfl⟩
      have e1 : (k : ℝ) * 2 ^ e - x = -(x / (2 : ℝ) ^ e - k) * 2 ^ e := by field_simp; ring
      have e2 : (l : ℝ) * 2 ^ e - x = -(x / (2 : ℝ) ^ e - l) * 2 ^ e := by field_simp; ring
      rw [e1, e2, abs_mul, abs_mul, abs_neg, abs_neg]
      exact mul_le_mul_of_nonneg_right (round_le _ _) (abs_nonneg _)
    have hmem : F.Mem ((k : ℝ) * 2 ^ e) := by
      refine mem_of_grid ⟨k, rfl⟩ he ?_
      have h1 : |x / (2 : ℝ) ^ e - k| ≤ 1 / 2 := abs_sub_round _
      have h2 : |(k : ℝ) * 2 ^ e - x| ≤ 2 ^ e / 2 := by
        have : (k : ℝ) * 2 ^ e - x = -(x / (2 : ℝ) ^ e - k) * 2 ^ e := by field_simp; ring
        rw [this, abs_mul, abs_neg, abs_of_pos hpos]
        nlinarith
      have h3 := abs_sub_abs_le_abs_sub ((k : ℝ) * 2 ^ e) x
      have h4 : |(k : ℝ) * 2 ^ e| < (((2 ^ F.p : ℤ) : ℝ) + 1) * 2 ^ e := by
        push_cast
        nlinarith
      have h5 := OnGrid.le_of_lt (e := e) ⟨k, rfl⟩ (2 ^ F.p) h4
      push_cast at h5
      exact h5
    refine ⟨_, hmem, fun z hz => ?_⟩
    by_cases hg : OnGrid e z
    · exact hnear z hg
    · -- a finer number is smaller than the power of 2 below `x`
      obtain ⟨ez, hz1, hz2, hz3⟩ := hz.rep
      have hlt : ez < e := by
        by_contra hc
        exact hg (hz2.mono (not_lt.1 hc))
      have hem : e = m + 1 - F.p := by
        rcases max_choice F.emin (m + 1 - F.p) with h | h
        · omega
        · omega
      have hz4 : |z| ≤ 2 ^ m := by
        refine hz3.trans ?_
        rw [← zpow_natCast, ← zpow_add₀ two_ne_zero]
        exact zpow_le_zpow_right₀ one_lt_two.le (by omega)
      have gm : OnGrid e ((2 : ℝ) ^ m) := by
        refine ⟨2 ^ (F.p - 1), ?_⟩
        push_cast
        rw [← zpow_natCast, ← zpow_add₀ two_ne_zero]
        congr 1
        rw [hem]
        push_cast [hp1]
        ring
      have hmp := two_zpow_pos m
      have hzl := abs_le.1 hz4
      rcases le_total 0 x with h0 | h0
      · refine (hnear _ gm).trans ?_
        rw [abs_of_nonneg h0] at hm1
        rw [abs_of_nonpos (by linarith), abs_of_nonpos (by linarith [hzl.2])]
        linarith [hzl.2]
      · refine (hnear _ gm.neg).trans ?_
        rw [abs_of_nonpos h0] at hm1
        rw [abs_of_nonneg (by linarith), abs_of_nonneg (by linarith [hzl.1])]
        linarith [hzl.1]

theorem rounding_exists (hp1 : 1 ≤ F.p) : Nonempty (Rounding F) := by
  classical
  refine ⟨⟨fun x => (nearest_exists hp1 x).choose, fun x => (nearest_exists hp1 x).choose_spec.1, fun x y hy => ?_⟩⟩
  exact (nearest_exists hp1 x).choose_spec.2 y hy

end Hila
