import Verif.Lemmas.Float
import Mathlib.Algebra.BigOperators.Group.List.Basic
import Mathlib.Tactic.Tauto

/-!
# C38: extended precision sums are exact up to the last correction
-/

namespace Hila

variable {F : FFormat} (R : Rounding F)

/-- The number an extended variable stands for. -/
def EP.rep (s : EP) : ℝ := s.v + s.c + s.c2

/-- All three parts are floating point numbers. -/
structure EP.Mem (F : FFormat) (s : EP) : Prop where
  v : F.Mem s.v
  c : F.Mem s.c
  c2 : F.Mem s.c2

/-- A sequence of additions. -/
noncomputable def EP.addAll (R : Rounding F) (s : EP) (xs : List ℝ) : EP := xs.foldl (EP.add R) s

/-- Bound of the rounding errors of `K` additions in a format with `2^-p = u`: only the last correction is rounded. `V`,
`C` and `D` are the sizes of the value and of the two corrections at the beginning, `X` is the sum of the sizes of the
added numbers. -/
noncomputable def tailBound (u : ℝ) (K : ℕ) (V C D X : ℝ) : ℝ :=
  K * u * (1 + u) ^ (3 * K) * (D + K * u * (C + K * u * (V + X)))

/-! ### One addition -/

theorem add_eq (hp1 : 1 ≤ F.p) {s : EP} (hs : s.Mem F) {x : ℝ} (hx : F.Mem x) {t t' : ℝ} (h1 : R.fl (s.v + x) = t)
    (h2 : R.fl (s.c + (s.v + x - t)) = t') :
    s.add R x = ⟨t, t', R.fl (s.c2 + (s.c + (s.v + x - t) - t'))⟩ := by
  subst h1
  unfold EP.add
  dsimp only
  rw [R.err_eq hp1 hs.v hx, R.err_eq hp1 hs.c (R.err_mem hs.v hx), h2]

/-- **C38 (one addition).** Adding a floating point number loses nothing in the value and the first correction: the
new value and correction and the rest `cc` that goes to the second correction have exactly the old sum plus `x`. The
second correction is the rounded sum with `cc`. -/
theorem C38_add (hp1 : 1 ≤ F.p) (s : EP) (hs : s.Mem F) (x : ℝ) (hx : F.Mem x) :
    ∃ c cc, F.Mem cc ∧ (s.add R x).v + c = s.v + x ∧ (s.add R x).c + cc = s.c + c ∧ (s.add R x).c2 = R.fl (s.c2 + cc) ∧
      |c| ≤ |s.v + x| / 2 ^ F.p ∧ |cc| ≤ |s.c + c| / 2 ^ F.p ∧ (s.add R x).Mem F := by
  have hc := R.err_mem hs.v hx
  have hcc := R.err_mem hs.c hc
  rw [add_eq R hp1 hs hx rfl rfl]
  refine ⟨s.v + x - R.fl (s.v + x), s.c + (s.v + x - R.fl (s.v + x)) - R.fl (s.c + (s.v + x - R.fl (s.v + x))), hcc,
    by ring, by ring, rfl, ?_, ?_, ⟨R.mem _, R.mem _, R.mem _⟩⟩
  · rw [abs_sub_comm]
    exact R.rel (hs.v.grid.add hx.grid)
  · rw [abs_sub_comm]
    exact R.rel (hs.c.grid.add hc.grid)

theorem tailBound_step {u K V C D X a : ℝ} (hu : 0 ≤ u) (hK : 0 ≤ K) (hV : 0 ≤ V) (hC : 0 ≤ C) (hD : 0 ≤ D) (hX : 0 ≤ X)
    (ha : 0 ≤ a) (Q : ℝ) (hQ : 1 ≤ Q) {V1 C1 D1 : ℝ} (hV1 : V1 ≤ (1 + u) * (V + a))
    (hC1 : C1 ≤ (1 + u) * (C + u * (V + a))) (hD1 : D1 ≤ (1 + u) * (D + u * (C + u * (V + a)))) :
    u * (D + u * (C + u * (V + a))) + K * u * Q * (D1 + K * u * (C1 + K * u * (V1 + X))) ≤
      (K + 1) * u * (Q * (1 + u) ^ 3) * (D + (K + 1) * u * (C + (K + 1) * u * (V + (a + X)))) := by
  obtain ⟨A, hA⟩ : ∃ A, A = V + (a + X) := ⟨_, rfl⟩
  have hA0 : 0 ≤ A := by rw [hA]; linarith
  have hq : 1 ≤ 1 + u := by linarith
  obtain ⟨G, hG⟩ : ∃ G, G = D + (K + 1) * u * (C + (K + 1) * u * A) := ⟨_, rfl⟩
  have hG0 : 0 ≤ G := by rw [hG]; positivity
  have hVa : V + a ≤ A := by rw [hA]; linarith
  have hVaX : V1 + X ≤ (1 + u) * A := by rw [hA]; nlinarith
  have h1 : D + u * (C + u * (V + a)) ≤ G := by
    have e1 : u * (V + a) ≤ (K + 1) * u * A := by
      calc u * (V + a) ≤ u * A := mul_le_mul_of_nonneg_left hVa hu
        _ ≤ (K + 1) * u * A := by
          have : 0 ≤ K * u * A := by positivity
          nlinarith
    have e2 : u * (C + u * (V + a)) ≤ (K + 1) * u * (C + (K + 1) * u * A) := by
      have e3 : u * (C + u * (V + a)) ≤ u * (C + (K + 1) * u * A) := mul_le_mul_of_nonneg_left (by linarith) hu
      have : 0 ≤ K * u * (C + (K + 1) * u * A) := by positivity
      nlinarith
    rw [hG]; linarith
  have h2 : D1 + K * u * (C1 + K * u * (V1 + X)) ≤ (1 + u) * G := by
    have e1 : K * u * (V1 + X) ≤ K * u * ((1 + u) * A) := mul_le_mul_of_nonneg_left hVaX (by positivity)
    have e2 : C1 ≤ (1 + u) * (C + u * A) :=
      hC1.trans (mul_le_mul_of_nonneg_left (by nlinarith) (by linarith))
    have e3 : K * u * (C1 + K * u * (V1 + X)) ≤ K * u * ((1 + u) * (C + u * A) + K * u * ((1 + u) * A)) :=
      mul_le_mul_of_nonneg_left (by linarith) (by positivity)
    have e40 : u * (C + u * (V + a)) ≤ u * (C + u * A) :=
      mul_le_mul_of_nonneg_left (add_le_add_right (mul_le_mul_of_nonneg_left hVa hu) C) hu
    have e4 : D1 ≤ (1 + u) * (D + u * (C + u * A)) :=
      hD1.trans (mul_le_mul_of_nonneg_left (by linarith) (by linarith))
    have e5 : (1 + u) * (D + u * (C + u * A)) + K * u * ((1 + u) * (C + u * A) + K * u * ((1 + u) * A)) =
        (1 + u) * (D + (K + 1) * u * C + (K ^ 2 + K + 1) * u ^ 2 * A) := by ring
    have e6 : G = D + (K + 1) * u * C + (K ^ 2 + 2 * K + 1) * u ^ 2 * A := by rw [hG]; ring
    have e7 : 0 ≤ K * u ^ 2 * A := by positivity
    have e8 : D + (K + 1) * u * C + (K ^ 2 + K + 1) * u ^ 2 * A ≤ G := by rw [e6]; nlinarith
    have := mul_le_mul_of_nonneg_left e8 (by linarith : 0 ≤ 1 + u)
    linarith
  have hq3 : (1 + u) ≤ (1 + u) ^ 3 := by
    calc (1 + u) = (1 + u) ^ 1 := (pow_one _).symm
      _ ≤ (1 + u) ^ 3 := pow_le_pow_right₀ hq (by norm_num)
  have hQ3 : 1 ≤ Q * (1 + u) ^ 3 := by nlinarith
  have t1 : u * (D + u * (C + u * (V + a))) ≤ u * (Q * (1 + u) ^ 3) * G := by
    calc u * (D + u * (C + u * (V + a))) ≤ u * G := mul_le_mul_of_nonneg_left h1 hu
      _ ≤ u * (Q * (1 + u) ^ 3) * G := by
        have : u * G ≤ (u * G) * (Q * (1 + u) ^ 3) := le_mul_of_one_le_right (by positivity) hQ3
        linarith
  have t2 : K * u * Q * (D1 + K * u * (C1 + K * u * (V1 + X))) ≤ K * u * (Q * (1 + u) ^ 3) * G := by
    have hQ0 : 0 ≤ Q := by linarith
    calc K * u * Q * (D1 + K * u * (C1 + K * u * (V1 + X))) ≤ K * u * Q * ((1 + u) * G) :=
          mul_le_mul_of_nonneg_left h2 (by positivity)
      _ ≤ K * u * Q * ((1 + u) ^ 3 * G) :=
          mul_le_mul_of_nonneg_left (mul_le_mul_of_nonneg_right hq3 hG0) (by positivity)
      _ = K * u * (Q * (1 + u) ^ 3) * G := by ring
  rw [← hA, ← hG]
  nlinarith

theorem addAll_mem (hp1 : 1 ≤ F.p) (xs : List ℝ) (s : EP) (hs : s.Mem F) (hx : ∀ x ∈ xs, F.Mem x) :
    (s.addAll R xs).Mem F := by
  induction xs generalizing s with
  | nil => exact hs
  | cons x xs ih =>
    obtain ⟨_, _, _, _, _, _, _, _, h⟩ := C38_add R hp1 s hs x (hx x (by simp))
    exact ih _ h (fun y hy => hx y (by simp [hy]))

/-- **C38 (sums).** After any sequence of additions of floating point numbers the variable stands for the exact sum, up
to an error of third order in the precision `u = 2^-p` (if the corrections are zero at the beginning). -/
theorem C38_sum (hp1 : 1 ≤ F.p) (xs : List ℝ) (s : EP) (hs : s.Mem F) (hx : ∀ x ∈ xs, F.Mem x) :
    |(s.addAll R xs).rep - (s.rep + xs.sum)| ≤
      tailBound (1 / 2 ^ F.p) xs.length |s.v| |s.c| |s.c2| (xs.map abs).sum := by
  obtain ⟨u, hu⟩ : ∃ u : ℝ, u = 1 / 2 ^ F.p := ⟨_, rfl⟩
  have hu0 : 0 ≤ u := by rw [hu]; positivity
  rw [← hu]
  have hdiv : ∀ y : ℝ, y / 2 ^ F.p = u * y := fun y => by rw [hu]; ring
  induction xs generalizing s with
  | nil => simp [EP.addAll, tailBound]
  | cons x xs ih =>
    obtain ⟨c, cc, hcc, h1, h2, h3, h4, h5, h6⟩ := C38_add R hp1 s hs x (hx x (by simp))
    have ih := ih _ h6 (fun y hy => hx y (by simp [hy]))
    have hrel := R.rel (hs.c2.grid.add hcc.grid)
    rw [hdiv] at h4 h5 hrel
    have e1 : (s.add R x).rep - (s.rep + x) = R.fl (s.c2 + cc) - (s.c2 + cc) := by
      unfold EP.rep
      rw [h3]
      linarith
    have hX : 0 ≤ (xs.map abs).sum := List.sum_nonneg (by
      intro y hy
      obtain ⟨z, _, rfl⟩ := List.mem_map.1 hy
      exact abs_nonneg z)
    have hvx : |s.v + x| ≤ |s.v| + |x| := abs_add_le _ _
    have hcb : |c| ≤ u * (|s.v| + |x|) := h4.trans (mul_le_mul_of_nonneg_left hvx hu0)
    have hsc : |s.c + c| ≤ |s.c| + u * (|s.v| + |x|) := (abs_add_le _ _).trans (by linarith)
    have hccb : |cc| ≤ u * (|s.c| + u * (|s.v| + |x|)) := h5.trans (mul_le_mul_of_nonneg_left hsc hu0)
    have hd : |s.c2 + cc| ≤ |s.c2| + u * (|s.c| + u * (|s.v| + |x|)) := (abs_add_le _ _).trans (by linarith)
    have hv1 : |(s.add R x).v| ≤ (1 + u) * (|s.v| + |x|) := by
      have : (s.add R x).v = (s.v + x) + -c := by linarith
      rw [this]
      refine (abs_add_le _ _).trans ?_
      rw [abs_neg]
      nlinarith
    have hc1 : |(s.add R x).c| ≤ (1 + u) * (|s.c| + u * (|s.v| + |x|)) := by
      have : (s.add R x).c = (s.c + c) + -cc := by linarith
      rw [this]
      refine (abs_add_le _ _).trans ?_
      rw [abs_neg]
      nlinarith
    have hd1 : |(s.add R x).c2| ≤ (1 + u) * (|s.c2| + u * (|s.c| + u * (|s.v| + |x|))) := by
      have : (s.add R x).c2 = (s.c2 + cc) + (R.fl (s.c2 + cc) - (s.c2 + cc)) := by rw [h3]; ring
      rw [this]
      refine (abs_add_le _ _).trans ?_
      nlinarith
    have hstep := tailBound_step hu0 (Nat.cast_nonneg xs.length) (abs_nonneg s.v) (abs_nonneg s.c) (abs_nonneg s.c2) hX
      (abs_nonneg x) ((1 + u) ^ (3 * xs.length)) (one_le_pow₀ (by linarith)) hv1 hc1 hd1
    have hgoal : tailBound u (x :: xs).length |s.v| |s.c| |s.c2| (((x :: xs).map abs).sum) =
        (xs.length + 1) * u * ((1 + u) ^ (3 * xs.length) * (1 + u) ^ 3) *
          (|s.c2| + (xs.length + 1) * u * (|s.c| + (xs.length + 1) * u * (|s.v| + (|x| + (xs.map abs).sum)))) := by
      unfold tailBound
      rw [List.length_cons, List.map_cons, List.sum_cons, ← pow_add]
      push_cast
      ring_nf
    rw [hgoal]
    refine le_trans ?_ hstep
    have e2 : (s.addAll R (x :: xs)).rep - (s.rep + (x :: xs).sum) =
        ((s.add R x).rep - (s.rep + x)) + (((s.add R x).addAll R xs).rep - ((s.add R x).rep + xs.sum)) := by
      rw [List.sum_cons]
      show ((s.add R x).addAll R xs).rep - _ = _
      ring
    rw [e2]
    refine (abs_add_le _ _).trans (add_le_add ?_ ih)
    rw [e1]
    exact hrel.trans (mul_le_mul_of_nonneg_left hd hu0)

/-- **C38 (fresh sums).** A variable set to zero and then increased by `n` floating point numbers stands for their exact
sum up to `n³ u³ (1+u)^(3n)` times the sum of their sizes. -/
theorem C38_fresh_sum (hp1 : 1 ≤ F.p) (xs : List ℝ) (hx : ∀ x ∈ xs, F.Mem x) :
    |((EP.ofDouble 0).addAll R xs).rep - xs.sum| ≤
      (xs.length : ℝ) ^ 3 * (1 / 2 ^ F.p) ^ 3 * (1 + 1 / 2 ^ F.p) ^ (3 * xs.length) * (xs.map abs).sum := by
  have h := C38_sum R hp1 xs (EP.ofDouble 0) ⟨mem_zero, mem_zero, mem_zero⟩ hx
  have e1 : (EP.ofDouble 0).rep = 0 := by simp [EP.rep, EP.ofDouble]
  rw [e1, zero_add] at h
  refine h.trans (le_of_eq ?_)
  unfold tailBound EP.ofDouble
  rw [abs_zero]
  ring

/-! ### Products with integers -/

/-- Largest exponent for which the search of a power of 2 stays in the type. -/
def IntTy.top (T : IntTy) : ℕ := if T.signed then T.width - 2 else T.width - 1

theorem IntTy.res_val {T : IntTy} {z : ℤ} (h : T.Val z) : T.res z = some z := by
  unfold IntTy.Val at h
  unfold IntTy.res
  cases hs : T.signed with
  | true =>
    rw [hs] at h
    simp only [if_true] at h ⊢
    rw [if_pos h]
  | false =>
    rw [hs] at h
    simp only [Bool.false_eq_true, if_false] at h ⊢
    rw [Int.emod_eq_of_lt h.1 h.2]

theorem IntTy.val_mono {T : IntTy} {y z : ℤ} (h : T.Val z) (h0 : 0 ≤ y) (hy : y ≤ z) : T.Val y := by
  unfold IntTy.Val at h ⊢
  split at h
  · rename_i hs
    rw [if_pos hs]
    have : (0 : ℤ) < 2 ^ (T.width - 1) := by positivity
    exact ⟨by linarith, by linarith [h.2]⟩
  · rename_i hs
    rw [if_neg hs]
    exact ⟨h0, by linarith [h.2]⟩

theorem IntTy.val_top {T : IntTy} (hw : 2 ≤ T.width) : T.Val (2 ^ T.top) := by
  unfold IntTy.Val IntTy.top
  split
  · have h : (2 : ℤ) ^ (T.width - 2) < 2 ^ (T.width - 1) := pow_lt_pow_right₀ (by norm_num) (by omega)
    have h2 : (0 : ℤ) < 2 ^ (T.width - 2) := by positivity
    exact ⟨by linarith, h⟩
  · exact ⟨by positivity, pow_lt_pow_right₀ (by norm_num) (by omega)⟩

theorem splitTwos_spec (T : IntTy) (k : ℕ) : ∀ (rhs mult : ℤ), 0 < rhs → rhs ≤ k → (∃ j : ℕ, mult = 2 ^ j) →
    T.Val (rhs * mult) →
    ∃ (r : ℤ) (i : ℕ), splitTwos T k rhs mult = .done (r, mult * 2 ^ i) ∧ r % 2 = 1 ∧ rhs = r * 2 ^ i ∧ 0 < r := by
  induction k with
  | zero => intro rhs mult h0 h1; exfalso; push_cast at h1; omega
  | succ k ih =>
    intro rhs mult h0 h1 hm hv
    unfold splitTwos
    by_cases he : rhs % 2 = 0
    · rw [if_pos he]
      obtain ⟨j, hj⟩ := hm
      have hmp : 0 < mult := by rw [hj]; positivity
      have h2 : rhs = 2 * (rhs / 2) := by omega
      have hq : 0 < rhs / 2 := by omega
      have hv2 : T.Val (mult * 2) := T.val_mono hv (by positivity) (by nlinarith)
      rw [T.res_val hv2]
      obtain ⟨r, i, e1, e2, e3, e4⟩ := ih (rhs / 2) (mult * 2) hq (by push_cast at h1; omega)
        ⟨j + 1, by rw [hj, pow_succ]⟩ (by rwa [show rhs / 2 * (mult * 2) = 2 * (rhs / 2) * mult by ring, ← h2])
      refine ⟨r, i + 1, ?_, e2, ?_, e4⟩
      · dsimp only
        rw [e1, pow_succ]
        congr 2
        ring
      · rw [h2, e3, pow_succ]
        ring
    · rw [if_neg he]
      exact ⟨rhs, 0, by rw [pow_zero, mul_one], by omega, by rw [pow_zero, mul_one], h0⟩

theorem largestPower_spec (T : IntTy) (hw : 2 ≤ T.width) (r : ℤ) (hr : r ≤ 2 ^ T.top) (k : ℕ) :
    ∀ j : ℕ, (2 : ℤ) ^ j < r → r ≤ 2 ^ j + k →
    ∃ i : ℕ, largestPower T r k (2 ^ j) = .done (2 ^ i) ∧ (2 : ℤ) ^ i < r ∧ r ≤ 2 * 2 ^ i := by
  induction k with
  | zero => intro j h1 h2; exfalso; push_cast at h2; omega
  | succ k ih =>
    intro j h1 h2
    unfold largestPower
    have hj : j < T.top := (pow_lt_pow_iff_right₀ (by norm_num : (1 : ℤ) < 2)).1 (h1.trans_le hr)
    have e : (2 : ℤ) * 2 ^ j = 2 ^ (j + 1) := by rw [pow_succ]; ring
    have e' : (2 : ℤ) ^ j * 2 = 2 ^ (j + 1) := by rw [pow_succ]
    have hv : T.Val (2 ^ (j + 1)) :=
      T.val_mono (T.val_top hw) (by positivity) (pow_le_pow_right₀ (by norm_num) (by omega))
    rw [e, e', T.res_val hv]
    dsimp only
    have hpos : (1 : ℤ) ≤ 2 ^ j := one_le_pow₀ (by norm_num)
    by_cases hlt : (2 : ℤ) ^ (j + 1) < r
    · rw [if_pos hlt]
      exact ih (j + 1) hlt (by push_cast at h2; rw [pow_succ]; linarith)
    · rw [if_neg hlt]
      exact ⟨j, rfl, h1, by rw [e]; exact not_lt.1 hlt⟩

theorem FFormat.Mem.mul_pow {x : ℝ} (h : F.Mem x) (i : ℕ) : F.Mem (x * ((2 ^ i : ℤ) : ℝ)) := by
  obtain ⟨m, e, hm, he, rfl⟩ := h
  refine ⟨m, e + i, hm, by omega, ?_⟩
  rw [zpow_add₀ two_ne_zero, zpow_natCast]
  push_cast
  ring

theorem scale_eq {s : EP} (hs : s.Mem F) (i : ℕ) :
    s.scale R (2 ^ i) = ⟨s.v * ((2 ^ i : ℤ) : ℝ), s.c * ((2 ^ i : ℤ) : ℝ), s.c2 * ((2 ^ i : ℤ) : ℝ)⟩ := by
  unfold EP.scale
  rw [R.fl_exact (hs.v.mul_pow i), R.fl_exact (hs.c.mul_pow i), R.fl_exact (hs.c2.mul_pow i)]

theorem scale_mem {s : EP} (hs : s.Mem F) (i : ℕ) : (s.scale R (2 ^ i)).Mem F := by
  rw [scale_eq R hs]
  exact ⟨hs.v.mul_pow i, hs.c.mul_pow i, hs.c2.mul_pow i⟩

/-- Size of the three parts. -/
def EP.size (s : EP) : ℝ := |s.v| + |s.c| + |s.c2|

theorem addLoop_spec (T : IntTy) (hw : 2 ≤ T.width) {a : EP} (ha : a.Mem F) (k : ℕ) : ∀ (r : ℤ) (s : EP) (j : ℕ), 0 < r →
    r ≤ k → r ≤ 2 ^ T.top → r ≤ 2 ^ j →
    ∃ xs : List ℝ, addLoop T R a (k + 1) r s = .done (s.addAll R xs) ∧ (∀ x ∈ xs, F.Mem x) ∧
      xs.sum = (r - 1) * a.rep ∧ (xs.map abs).sum = (r - 1) * a.size ∧ xs.length ≤ 3 * j ∧ (r = 1 → xs = []) := by
  induction k with
  | zero => intro r s j h0 h1; exfalso; push_cast at h1; omega
  | succ k ih =>
    intro r s j h0 hk ht hj
    rw [addLoop]
    by_cases h1 : r > 1
    · rw [if_pos h1]
      obtain ⟨i, e1, e2, e3⟩ := largestPower_spec T hw r ht (k + 1) 0 (by rw [pow_zero]; exact h1)
        (by rw [pow_zero]; push_cast at hk ⊢; omega)
      rw [pow_zero] at e1
      rw [e1]
      dsimp only
      have hij : i < j := (pow_lt_pow_iff_right₀ (by norm_num : (1 : ℤ) < 2)).1 (e2.trans_le hj)
      have hpos : (1 : ℤ) ≤ 2 ^ i := one_le_pow₀ (by norm_num)
      obtain ⟨xs, f1, f2, f3, f4, f5, _⟩ := ih (r - 2 ^ i) (s.addE R (a.scale R (2 ^ i))) i (by linarith)
        (by push_cast at hk ⊢; linarith) (by linarith) (by linarith)
      have hsm := scale_mem R ha i
      refine ⟨(a.scale R (2 ^ i)).c2 :: (a.scale R (2 ^ i)).c :: (a.scale R (2 ^ i)).v :: xs, ?_, ?_, ?_, ?_, ?_, ?_⟩
      · rw [f1]
        rfl
      · intro x hx
        simp only [List.mem_cons] at hx
        rcases hx with rfl | rfl | rfl | hx
        · exact hsm.c2
        · exact hsm.c
        · exact hsm.v
        · exact f2 x hx
      · rw [List.sum_cons, List.sum_cons, List.sum_cons, f3, scale_eq R ha]
        unfold EP.rep
        push_cast
        ring
      · simp only [List.map_cons, List.sum_cons]
        rw [f4, scale_eq R ha]
        have hp : |((2 ^ i : ℤ) : ℝ)| = 2 ^ i := by
          push_cast
          exact abs_of_pos (by positivity)
        simp only [abs_mul, hp]
        unfold EP.size
        push_cast
        ring
      · simp only [List.length_cons]
        omega
      · intro h; omega
    · rw [if_neg h1]
      have : r = 1 := by omega
      refine ⟨[], rfl, by simp, ?_, ?_, by simp, fun _ => rfl⟩
      · rw [this]; simp
      · rw [this]; simp

/-- **C38 (products), part.** Multiplication by an integer `z` of any type gives `z` times the number, up to the rounding
of the second correction in at most `3w` additions; it is exact if `|z|` is a power of 2. The loops end. `z` is
`± r·2^j` with `r` odd. Missing: `-z` outside the type, and `r > 2^(w-1)` (unsigned) or `r > 2^(w-2)` (signed), for which
it is false, see `C38_mul_forever` and `C38_mul_undefined`. -/
theorem C38_mul_partial (hp1 : 1 ≤ F.p) (T : IntTy) (hw : 2 ≤ T.width) (s : EP) (hs : s.Mem F) (z r : ℤ) (j : ℕ)
    (hz : T.Val |z|) (hzr : |z| = r * 2 ^ j) (hr : r % 2 = 1) (hr0 : 0 < r) (hrt : r ≤ 2 ^ T.top) :
    ∃ k0 K : ℕ, K ≤ 3 * T.width ∧ (r = 1 → K = 0) ∧ ∀ k ≥ k0, ∃ q, EP.mulInt R T k s z = .done q ∧ q.Mem F ∧
      |q.rep - z * s.rep| ≤ tailBound (1 / 2 ^ F.p) K (2 ^ j * |s.v|) (2 ^ j * |s.c|) (2 ^ j * |s.c2|)
        ((r - 1) * (2 ^ j * s.size)) := by
  have hzpos : 0 < |z| := by rw [hzr]; positivity
  have hz0 : z ≠ 0 := abs_pos.1 hzpos
  have hsm := scale_mem R hs j
  have hsc := scale_eq R hs j
  -- the list of additions does not depend on the number of turns allowed
  have hloop : ∀ k : ℕ, r ≤ k → ∃ xs : List ℝ, addLoop T R (s.scale R (2 ^ j)) (k + 1) r (s.scale R (2 ^ j)) =
      .done ((s.scale R (2 ^ j)).addAll R xs) ∧ (∀ x ∈ xs, F.Mem x) ∧
      xs.sum = (r - 1) * (s.scale R (2 ^ j)).rep ∧ (xs.map abs).sum = (r - 1) * (s.scale R (2 ^ j)).size ∧
      xs.length ≤ 3 * T.top ∧ (r = 1 → xs = []) := fun k hk =>
    addLoop_spec R T hw hsm k r _ T.top hr0 hk hrt hrt
  have htop : T.top ≤ T.width := by unfold IntTy.top; split <;> omega
  refine ⟨|z|.toNat + 1, if r = 1 then 0 else 3 * T.width, by split <;> omega, fun h => if_pos h, fun k hk => ?_⟩
  have hzk : |z| ≤ k := by omega
  obtain ⟨r', i, g1, g2, g3, g4⟩ := splitTwos_spec T k |z| 1 hzpos hzk ⟨0, rfl⟩ (by rwa [mul_one])
  rw [one_mul] at g1
  -- the odd part is unique
  have huniq : r' = r ∧ i = j := by
    have h : r' * 2 ^ i = r * 2 ^ j := by rw [← g3, hzr]
    have hij : i = j := by
      rcases lt_trichotomy i j with h' | h' | h'
      · exfalso
        have h2 : (2 : ℤ) ^ j = 2 ^ i * (2 * 2 ^ (j - i - 1)) := by
          rw [← pow_succ', ← pow_add]; congr 1; omega
        rw [h2, show r * (2 ^ i * (2 * 2 ^ (j - i - 1))) = (r * (2 * 2 ^ (j - i - 1))) * 2 ^ i by ring] at h
        have h3 := mul_right_cancel₀ (by positivity : (2 : ℤ) ^ i ≠ 0) h
        rw [h3, show r * (2 * 2 ^ (j - i - 1)) = 2 * (r * 2 ^ (j - i - 1)) by ring] at g2
        omega
      · exact h'
      · exfalso
        have h2 : (2 : ℤ) ^ i = 2 ^ j * (2 * 2 ^ (i - j - 1)) := by
          rw [← pow_succ', ← pow_add]; congr 1; omega
        rw [h2, show r' * (2 ^ j * (2 * 2 ^ (i - j - 1))) = (r' * (2 * 2 ^ (i - j - 1))) * 2 ^ j by ring] at h
        have h3 := mul_right_cancel₀ (by positivity : (2 : ℤ) ^ j ≠ 0) h
        rw [← h3, show r' * (2 * 2 ^ (i - j - 1)) = 2 * (r' * 2 ^ (i - j - 1)) by ring] at hr
        omega
    subst hij
    exact ⟨mul_right_cancel₀ (by positivity : (2 : ℤ) ^ i ≠ 0) h, rfl⟩
  obtain ⟨rfl, rfl⟩ := huniq
  have hrk : r' ≤ ((k - 1 : ℕ) : ℤ) := by
    have h2 : r' ≤ |z| := by
      rw [g3]
      exact le_mul_of_one_le_right hr0.le (one_le_pow₀ (by norm_num))
    omega
  obtain ⟨xs, f1, f2, f3, f4, f5, f6⟩ := hloop (k - 1) hrk
  rw [show k - 1 + 1 = k by omega] at f1
  have hneg : (if z < 0 then T.res (-z) else some z) = some |z| := by
    split
    · rename_i h
      rw [abs_of_neg h] at hz ⊢
      exact T.res_val hz
    · rename_i h
      rw [abs_of_nonneg (not_lt.1 h)]
  refine ⟨if z < 0 then ((s.scale R (2 ^ i)).addAll R xs).neg else (s.scale R (2 ^ i)).addAll R xs, ?_, ?_, ?_⟩
  · unfold EP.mulInt
    rw [if_neg hz0, hneg]
    dsimp only
    rw [g1]
    dsimp only
    rw [f1]
  · have := addAll_mem R hp1 xs _ hsm f2
    split
    · exact ⟨this.v.neg, this.c.neg, this.c2.neg⟩
    · exact this
  · have hb := C38_sum R hp1 xs _ hsm f2
    have e1 : (s.scale R (2 ^ i)).rep + xs.sum = (|z| : ℤ) * s.rep := by
      rw [f3, hsc, g3]
      unfold EP.rep
      push_cast
      ring
    rw [e1] at hb
    have e2 : |(if z < 0 then ((s.scale R (2 ^ i)).addAll R xs).neg else (s.scale R (2 ^ i)).addAll R xs).rep
        - z * s.rep| = |((s.scale R (2 ^ i)).addAll R xs).rep - (|z| : ℤ) * s.rep| := by
      split
      · rename_i h
        rw [abs_of_neg h, ← abs_neg]
        congr 1
        unfold EP.neg EP.rep
        push_cast
        ring
      · rename_i h
        rw [abs_of_nonneg (not_lt.1 h)]
    rw [e2]
    refine hb.trans ?_
    have hp2 : |((2 ^ i : ℤ) : ℝ)| = 2 ^ i := by
      push_cast
      exact abs_of_pos (by positivity)
    have e3 : |(s.scale R (2 ^ i)).v| = 2 ^ i * |s.v| := by rw [hsc]; dsimp only; rw [abs_mul, hp2, mul_comm]
    have e4 : |(s.scale R (2 ^ i)).c| = 2 ^ i * |s.c| := by rw [hsc]; dsimp only; rw [abs_mul, hp2, mul_comm]
    have e5 : |(s.scale R (2 ^ i)).c2| = 2 ^ i * |s.c2| := by rw [hsc]; dsimp only; rw [abs_mul, hp2, mul_comm]
    have e6 : (s.scale R (2 ^ i)).size = 2 ^ i * s.size := by
      unfold EP.size
      rw [e3, e4, e5]
      ring
    rw [f4, e3, e4, e5, e6]
    by_cases h1 : r' = 1
    · rw [f6 h1, if_pos h1]
      simp [tailBound]
    · rw [if_neg h1]
      have hl : (xs.length : ℝ) ≤ ((3 * T.width : ℕ) : ℝ) := by exact_mod_cast (by omega : xs.length ≤ 3 * T.width)
      have hu : (0 : ℝ) ≤ 1 / 2 ^ F.p := by positivity
      have hX : (0 : ℝ) ≤ (r' - 1) * (2 ^ i * s.size) := by
        have : (1 : ℝ) ≤ r' := by exact_mod_cast hr0
        have hsz : 0 ≤ s.size := by unfold EP.size; positivity
        exact mul_nonneg (by linarith) (by positivity)
      generalize 1 / 2 ^ F.p = u at hu
      generalize (r' - 1 : ℝ) * (2 ^ i * s.size) = X at hX
      unfold tailBound
      gcongr
      · linarith
      · omega

/-- **C38 (products with zero).** -/
theorem C38_mul_zero (T : IntTy) (k : ℕ) (s : EP) : EP.mulInt R T k s 0 = .done ⟨0, 0, 0⟩ := by
  unfold EP.mulInt
  rw [if_pos rfl]
  rfl

theorem largestPower_forever (T : IntTy) (hu : T.signed = false) (hw : 2 ≤ T.width) (r : ℤ)
    (hr : 2 ^ (T.width - 1) < r) (k : ℕ) :
    ∀ m : ℤ, (m = 0 ∨ ∃ i ≤ T.width - 1, m = 2 ^ i) → largestPower T r k m = .running := by
  induction k with
  | zero => intro m _; rfl
  | succ k ih =>
    intro m hm
    have hrp : 0 < r := lt_trans (by positivity) hr
    have key : ∃ m', T.res (2 * m) = some m' ∧ T.res (m * 2) = some m' ∧ m' < r ∧
        (m' = 0 ∨ ∃ i ≤ T.width - 1, m' = 2 ^ i) := by
      have hres : ∀ z, T.res z = some (z % 2 ^ T.width) := fun z => by
        unfold IntTy.res; rw [hu]; rfl
      rcases hm with rfl | ⟨i, hi, rfl⟩
      · exact ⟨0, by rw [hres]; simp, by rw [hres]; simp, hrp, Or.inl rfl⟩
      · rcases Nat.lt_or_ge i (T.width - 1) with h | h
        · have e : (2 : ℤ) * 2 ^ i % 2 ^ T.width = 2 ^ (i + 1) := by
            rw [← pow_succ']
            exact Int.emod_eq_of_lt (by positivity) (pow_lt_pow_right₀ (by norm_num) (by omega))
          refine ⟨2 ^ (i + 1), by rw [hres, e], by rw [hres, mul_comm, e], ?_, Or.inr ⟨i + 1, by omega, rfl⟩⟩
          exact lt_of_le_of_lt (pow_le_pow_right₀ (by norm_num) (by omega)) hr
        · have hi' : i = T.width - 1 := by omega
          have e : (2 : ℤ) * 2 ^ i % 2 ^ T.width = 0 := by
            rw [← pow_succ', hi', show T.width - 1 + 1 = T.width by omega]
            exact Int.emod_self
          exact ⟨0, by rw [hres, e], by rw [hres, mul_comm, e], hrp, Or.inl rfl⟩
    obtain ⟨m', h1, h2, h3, h4⟩ := key
    rw [largestPower, h1, h2]
    dsimp only
    rw [if_pos h3]
    exact ih m' h4

/-- **C38 (negation, endless loop).** Multiplication by an odd unsigned integer above half the range never ends, for
instance by `2^31 + 1` of 32 bits. -/
theorem C38_mul_forever (T : IntTy) (hu : T.signed = false) (hw : 2 ≤ T.width) (s : EP) (z : ℤ) (hodd : z % 2 = 1)
    (hz : 2 ^ (T.width - 1) < z) (k : ℕ) : EP.mulInt R T k s z = .running := by
  have hpos : (0 : ℤ) < 2 ^ (T.width - 1) := by positivity
  unfold EP.mulInt
  rw [if_neg (by omega), if_neg (by omega)]
  dsimp only
  cases k with
  | zero => rfl
  | succ k =>
    rw [splitTwos, if_neg (by omega)]
    dsimp only
    rw [addLoop, if_pos (by omega)]
    rw [largestPower_forever T hu hw z hz k 1 (Or.inr ⟨0, by omega, rfl⟩)]

theorem largestPower_undefined (T : IntTy) (hu : T.signed = true) (hw : 2 ≤ T.width) (r : ℤ)
    (hr : 2 ^ (T.width - 2) < r) (d : ℕ) :
    ∀ (k i : ℕ), i + d = T.width - 2 → d < k → largestPower T r k (2 ^ i) = .undefined := by
  induction d with
  | zero =>
    intro k i hi hk
    obtain ⟨k, rfl⟩ := Nat.exists_eq_succ_of_ne_zero (by omega : k ≠ 0)
    rw [largestPower]
    have e : T.res (2 * 2 ^ i) = none := by
      unfold IntTy.res
      rw [hu]
      simp only [if_true]
      rw [← pow_succ', if_neg]
      rintro ⟨_, h⟩
      have := (pow_lt_pow_iff_right₀ (by norm_num : (1 : ℤ) < 2)).1 h
      omega
    rw [e]
  | succ d ih =>
    intro k i hi hk
    obtain ⟨k, rfl⟩ := Nat.exists_eq_succ_of_ne_zero (by omega : k ≠ 0)
    rw [largestPower]
    have hlt : (2 : ℤ) ^ (i + 1) < 2 ^ (T.width - 1) := pow_lt_pow_right₀ (by norm_num) (by omega)
    have hval : T.Val (2 ^ (i + 1)) := by
      unfold IntTy.Val
      rw [hu]
      have : (0 : ℤ) < 2 ^ (i + 1) := by positivity
      have h2 : (0 : ℤ) < 2 ^ (T.width - 1) := by positivity
      exact ⟨by linarith, hlt⟩
    rw [← pow_succ', ← pow_succ, T.res_val hval]
    dsimp only
    rw [if_pos (lt_of_le_of_lt (pow_le_pow_right₀ (by norm_num) (by omega)) hr)]
    exact ih k (i + 1) (by omega) (by omega)

/-- **C38 (negation, overflow).** Multiplication by an odd signed integer above a quarter of the range (half of the largest
value) is undefined, for instance by `2^30 + 1` of type `int`. -/
theorem C38_mul_undefined (T : IntTy) (hu : T.signed = true) (hw : 2 ≤ T.width) (s : EP) (z : ℤ) (hodd : z % 2 = 1)
    (hz : 2 ^ (T.width - 2) < z) (k : ℕ) (hk : T.width < k) : EP.mulInt R T k s z = .undefined := by
  have hpos : (0 : ℤ) < 2 ^ (T.width - 2) := by positivity
  unfold EP.mulInt
  rw [if_neg (by omega), if_neg (by omega)]
  dsimp only
  obtain ⟨k, rfl⟩ := Nat.exists_eq_succ_of_ne_zero (by omega : k ≠ 0)
  rw [splitTwos, if_neg (by omega)]
  dsimp only
  rw [addLoop, if_pos (by omega)]
  rw [show (1 : ℤ) = 2 ^ 0 from rfl, largestPower_undefined T hu hw z hz (T.width - 2) k 0 (by omega) (by omega)]

/-! ### Comparisons -/

theorem Cmp.holds_of_sign (op : Cmp) {x y : ℝ} (hp : 0 < x → 0 < y) (hn : x < 0 → y < 0) (h0 : x = 0 → y = 0) :
    op.Holds y 0 ↔ op.Holds x 0 := by
  rcases lt_trichotomy x 0 with h | h | h
  · have h' := hn h
    cases op <;> simp only [Cmp.Holds] <;> constructor <;> intro <;> linarith
  · rw [h0 h, h]
  · have h' := hp h
    cases op <;> simp only [Cmp.Holds] <;> constructor <;> intro <;> linarith

theorem Cmp.holds_sub (op : Cmp) (x y : ℝ) : op.Holds (x - y) 0 ↔ op.Holds x y := by
  cases op <;> simp only [Cmp.Holds]
  · exact sub_eq_zero
  · exact sub_ne_zero
  · exact sub_pos
  · exact sub_neg
  · exact sub_nonneg
  · exact sub_nonpos

/-- The sign of `to_double` is the sign of the number, if the second correction is small or the first two parts cancel. -/
theorem toDouble_sign (hp1 : 1 ≤ F.p) {t : EP} (ht : t.Mem F) (h : t.v + t.c = 0 ∨ 2 * |t.c2| < |t.v + t.c|) (op : Cmp) :
    op.Holds (t.toDouble R) 0 ↔ op.Holds t.rep 0 := by
  have hg : OnGrid F.emin (t.v + t.c) := ht.v.grid.add ht.c.grid
  have hA := (R.mem (t.v + t.c)).grid
  have hs := R.sign hp1 (hA.add ht.c2.grid)
  unfold EP.toDouble EP.rep
  rcases h with h | h
  · rw [h, R.fl_exact mem_zero, zero_add, R.fl_exact ht.c2]
  · have hrel := R.rel hg
    have h2 : (2 : ℝ) ≤ 2 ^ F.p := by
      calc (2 : ℝ) = 2 ^ 1 := (pow_one 2).symm
        _ ≤ 2 ^ F.p := pow_le_pow_right₀ one_lt_two.le hp1
    have h3 : |t.v + t.c| / 2 ^ F.p ≤ |t.v + t.c| / 2 := div_le_div_of_nonneg_left (abs_nonneg _) two_pos h2
    have h4 := abs_le.1 (hrel.trans h3)
    have h5 := abs_le.1 (le_refl |t.c2|)
    refine op.holds_of_sign (fun hx => hs.1 ?_) (fun hx => hs.2.1 ?_) (fun hx => ?_)
    · rcases le_total 0 (t.v + t.c) with h0 | h0
      · rw [abs_of_nonneg h0] at h h4
        linarith [h4.1, h5.1]
      · rw [abs_of_nonpos h0] at h
        linarith [h5.2]
    · rcases le_total 0 (t.v + t.c) with h0 | h0
      · rw [abs_of_nonneg h0] at h
        linarith [h5.1]
      · rw [abs_of_nonpos h0] at h h4
        linarith [h4.2, h5.2]
    · exfalso
      rcases le_total 0 (t.v + t.c) with h0 | h0
      · rw [abs_of_nonneg h0] at h
        linarith [h5.1]
      · rw [abs_of_nonpos h0] at h
        linarith [h5.2]

/-- **C38 (comparisons), part.** A comparison of two extended numbers is the comparison with 0 of a number that differs
from `a - b` by the rounding of the second correction in three additions, if in the computed difference `t` the second
correction is small or the first two parts cancel. Missing: other differences, for which the answer can be wrong
(`C38_compare_wrong`). -/
theorem C38_compare_partial (hp1 : 1 ≤ F.p) (a b : EP) (ha : a.Mem F) (hb : b.Mem F) (op : Cmp) :
    ∃ t P, Num.sub R (.ext a) (.ext b) = some t ∧ Num.cmp R op (.ext a) (.ext b) = some P ∧
      |t.rep - (a.rep - b.rep)| ≤ tailBound (1 / 2 ^ F.p) 3 |a.v| |a.c| |a.c2| b.size ∧
      (t.v + t.c = 0 ∨ 2 * |t.c2| < |t.v + t.c| → (P ↔ op.Holds t.rep 0)) := by
  have hx : ∀ x ∈ [-b.c2, -b.c, -b.v], F.Mem x := by
    intro x hx
    simp only [List.mem_cons, List.not_mem_nil, or_false] at hx
    rcases hx with rfl | rfl | rfl
    · exact hb.c2.neg
    · exact hb.c.neg
    · exact hb.v.neg
  have hm := addAll_mem R hp1 [-b.c2, -b.c, -b.v] a ha hx
  have hs := C38_sum R hp1 [-b.c2, -b.c, -b.v] a ha hx
  refine ⟨a.addAll R [-b.c2, -b.c, -b.v], _, rfl, rfl, ?_, fun h => toDouble_sign R hp1 hm h op⟩
  have e1 : a.rep + [-b.c2, -b.c, -b.v].sum = a.rep - b.rep := by
    simp only [List.sum_cons, List.sum_nil]
    unfold EP.rep
    ring
  have e2 : ([-b.c2, -b.c, -b.v].map abs).sum = b.size := by
    simp only [List.map_cons, List.map_nil, List.sum_cons, List.sum_nil, abs_neg]
    unfold EP.size
    ring
  rw [e1, e2] at hs
  exact hs

/-- **C38 (comparisons of single numbers).** A variable that holds one floating point number compares with floating point
numbers as the numbers do. -/
theorem C38_compare_double (hp1 : 1 ≤ F.p) (x y : ℝ) (hx : F.Mem x) (hy : F.Mem y) (op : Cmp) :
    ∃ P, Num.cmp R op (.ext (EP.ofDouble x)) (.double y) = some P ∧ (P ↔ op.Holds x y) := by
  refine ⟨_, rfl, ?_⟩
  have hs : (EP.ofDouble x).Mem F := ⟨hx, mem_zero, mem_zero⟩
  have e : (EP.ofDouble x).add R (-y) = ⟨R.fl (x + -y), x + -y - R.fl (x + -y), 0⟩ := by
    rw [add_eq R hp1 hs hy.neg (t := R.fl (x + -y)) (t' := x + -y - R.fl (x + -y)) rfl
      (by show R.fl (0 + (x + -y - R.fl (x + -y))) = _; rw [zero_add, R.fl_exact (R.err_mem hx hy.neg)])]
    congr 1
    show R.fl (0 + (0 + (x + -y - R.fl (x + -y)) - (x + -y - R.fl (x + -y)))) = 0
    rw [zero_add, zero_add, sub_self, R.fl_exact mem_zero]
  show op.Holds (((EP.ofDouble x).add R (-y)).toDouble R) 0 ↔ _
  have hm := addAll_mem R hp1 [-y] (EP.ofDouble x) hs (by simp [hy.neg])
  have hm : ((EP.ofDouble x).add R (-y)).Mem F := hm
  rw [e] at hm ⊢
  rw [toDouble_sign R hp1 hm (by
    by_cases h : R.fl (x + -y) + (x + -y - R.fl (x + -y)) = 0
    · exact Or.inl h
    · right
      show 2 * |(0 : ℝ)| < _
      rw [abs_zero, mul_zero]
      exact abs_pos.2 h) op]
  unfold EP.rep
  rw [show R.fl (x + -y) + (x + -y - R.fl (x + -y)) + 0 = x - y by ring]
  exact op.holds_sub x y

/-- The same for integers `z` such that `-z` is in the type. -/
theorem C38_compare_int (hp1 : 1 ≤ F.p) (T : IntTy) (x : ℝ) (z : ℤ) (hx : F.Mem x)
    (hz : F.Mem z) (hv : T.Val (-z)) (op : Cmp) :
    ∃ P, Num.cmp R op (.ext (EP.ofDouble x)) (.int T z) = some P ∧ (P ↔ op.Holds x z) := by
  obtain ⟨P, h1, h2⟩ := C38_compare_double R hp1 x z hx hz op
  refine ⟨P, ?_, h2⟩
  rw [← h1]
  simp only [Num.cmp, Num.sub, Num.neg]
  rw [T.res_val hv]
  have : R.fl ((-z : ℤ) : ℝ) = -(z : ℝ) := by
    push_cast
    exact R.fl_exact hz.neg
  simp only [Option.map_some, Option.bind_some, Num.add, this]

/-- **C38 (negation, unsigned operands).** `s - n` for an unsigned integer `n > 0` adds `2^w - n`, with `w` the number of
bits. -/
theorem C38_unsigned_minus (T : IntTy) (hT : T.signed = false) (s : EP) (z : ℤ) (h0 : 0 < z) (h1 : z < 2 ^ T.width) :
    Num.sub R (.ext s) (.int T z) = some (s.add R (R.fl ((2 ^ T.width - z : ℤ) : ℝ))) := by
  have e : T.res (-z) = some (2 ^ T.width - z) := by
    unfold IntTy.res
    rw [hT]
    simp only [Bool.false_eq_true, if_false, Option.some.injEq]
    rw [← Int.add_emod_right, Int.emod_eq_of_lt (by linarith) (by linarith)]
    ring
  simp only [Num.sub, Num.neg]
  rw [e]
  rfl

theorem mem_double_int (z : ℤ) (h : |z| ≤ 2 ^ 53) : doubleFormat.Mem z :=
  ⟨z, 0, h, by decide, by simp⟩

/-- **C38 (negation, unsigned comparison).** An extended variable with value `n` is not equal to the unsigned 32-bit
integer `n`, for all `n > 0`. -/
theorem C38_unsigned_equal (R : Rounding doubleFormat) (z : ℤ) (h0 : 0 < z) (h1 : z < 2 ^ 32) :
    ∃ P, Num.cmp R .eq (.ext (EP.ofDouble z)) (.int ⟨32, false⟩ z) = some P ∧ ¬ P := by
  have hz : doubleFormat.Mem z := mem_double_int z (by rw [abs_of_pos h0]; linarith)
  have hy : doubleFormat.Mem ((2 ^ 32 - z : ℤ) : ℝ) := mem_double_int _ (by rw [abs_of_pos (by linarith)]; linarith)
  have h2 := C38_unsigned_minus R ⟨32, false⟩ rfl (EP.ofDouble z) z h0 h1
  dsimp only at h2
  refine ⟨_, by unfold Num.cmp; rw [h2]; rfl, ?_⟩
  rw [R.fl_exact hy]
  have hd := C38_compare_double R (by decide) (z : ℝ) (-((2 ^ 32 - z : ℤ) : ℝ)) hz hy.neg .eq
  obtain ⟨P, e1, e2⟩ := hd
  unfold Num.cmp Num.sub Num.neg at e1
  simp only [Option.bind_some, Num.add, Option.map_some, Option.some.injEq, neg_neg] at e1
  rw [← e1] at e2
  refine fun hc => absurd (e2.1 hc) ?_
  simp only [Cmp.Holds]
  intro h
  push_cast at h
  norm_num at h
  linarith

/-- A power of 2 is a `double`. -/
theorem mem_double_pow (k : ℕ) : doubleFormat.Mem (2 ^ k) :=
  ⟨1, k, by rw [abs_one]; exact one_le_pow₀ (by norm_num), by show (-1074 : ℤ) ≤ k; omega, by rw [zpow_natCast]; push_cast; ring⟩

theorem absorb_double (R : Rounding doubleFormat) (a : ℕ) (ha : 54 ≤ a) (y : ℝ) (hy : 2 * |y| < 2 ^ (a - 54)) :
    R.fl (2 ^ a + y) = 2 ^ a := by
  have e1 : (2 : ℝ) ^ a = 2 ^ 54 * 2 ^ (a - 54) := by rw [← pow_add]; congr 1; omega
  refine R.absorb (e := ((a - 54 : ℕ) : ℤ)) (mem_double_pow a) ?_ ⟨2 ^ 54, ?_⟩ ?_ ?_
  · show (-1074 : ℤ) ≤ _
    omega
  · rw [zpow_natCast, e1]
    norm_num
  · rw [zpow_natCast]
    show (2 : ℝ) ^ 53 * 2 ^ (a - 54) ≤ _
    have h1 := abs_le.1 (le_refl |y|)
    have h2 : (0 : ℝ) < 2 ^ (a - 54) := by positivity
    have h3 : (2 : ℝ) ^ 54 * 2 ^ (a - 54) = 2 * (2 ^ 53 * 2 ^ (a - 54)) := by ring
    have h4 : (1 : ℝ) * 2 ^ (a - 54) ≤ 2 ^ 53 * 2 ^ (a - 54) := mul_le_mul_of_nonneg_right (by norm_num) h2.le
    rw [e1, h3]
    refine le_trans ?_ (le_abs_self _)
    linarith [h1.1]
  · rw [zpow_natCast]
    exact hy

/-- **C38 (negation, comparison).** The sum of the seven numbers `2^180, 2^120, -2^60, -2^120, -2^180, 2^60, 1` is 1. The
extended variable stands for 1 exactly, but `to_double` returns 0 and the variable compares equal to 0, for every rule
for ties. -/
theorem C38_compare_wrong (R : Rounding doubleFormat) :
    ∃ s P, s = (EP.ofDouble 0).addAll R [2 ^ 180, 2 ^ 120, -2 ^ 60, -2 ^ 120, -2 ^ 180, 2 ^ 60, 1] ∧ s.rep = 1 ∧
      s.toDouble R = 0 ∧ Num.cmp R .eq (.ext s) (.double 0) = some P ∧ P := by
  have hp1 : 1 ≤ doubleFormat.p := by decide
  have mz : doubleFormat.Mem 0 := mem_zero
  have m1 : doubleFormat.Mem 1 := by have := mem_double_pow 0; rwa [pow_zero] at this
  have mp := mem_double_pow
  have st : ∀ {s : EP}, s.Mem doubleFormat → ∀ {x : ℝ}, doubleFormat.Mem x → ∀ t t' c2' : ℝ, R.fl (s.v + x) = t →
      R.fl (s.c + (s.v + x - t)) = t' → R.fl (s.c2 + (s.c + (s.v + x - t) - t')) = c2' → s.add R x = ⟨t, t', c2'⟩ := by
    intro s hs x hx t t' c2' h1 h2 h3
    rw [add_eq R hp1 hs hx h1 h2, h3]
  have f0 : ∀ y, doubleFormat.Mem y → R.fl y = y := fun y hy => R.fl_exact hy
  have g : ∀ {y z : ℝ}, y = z → doubleFormat.Mem z → R.fl y = z := fun h hz => by rw [h, f0 _ hz]
  have b : ∀ {a : ℕ} {y z : ℝ}, y = 2 ^ a + z → 54 ≤ a → 2 * |z| < 2 ^ (a - 54) → R.fl y = 2 ^ a := fun h h1 h2 => by
    rw [h]; exact absorb_double R _ h1 _ h2
  have h61 : R.fl (2 ^ 60 + 1) = 2 ^ 60 := absorb_double R 60 (by norm_num) _ (by norm_num)
  have s1 : (EP.ofDouble 0).add R (2 ^ 180) = ⟨2 ^ 180, 0, 0⟩ :=
    st ⟨mz, mz, mz⟩ (mp 180) _ _ _ (g (by simp [EP.ofDouble]) (mp 180)) (g (by simp [EP.ofDouble]) mz)
      (g (by simp [EP.ofDouble]) mz)
  have s2 : (⟨2 ^ 180, 0, 0⟩ : EP).add R (2 ^ 120) = ⟨2 ^ 180, 2 ^ 120, 0⟩ :=
    st ⟨mp 180, mz, mz⟩ (mp 120) _ _ _ (b (a := 180) (z := 2 ^ 120) rfl (by norm_num) (by norm_num))
      (g (by dsimp only; ring) (mp 120)) (g (by dsimp only; ring) mz)
  have s3 : (⟨2 ^ 180, 2 ^ 120, 0⟩ : EP).add R (-2 ^ 60) = ⟨2 ^ 180, 2 ^ 120, -2 ^ 60⟩ :=
    st ⟨mp 180, mp 120, mz⟩ (mp 60).neg _ _ _ (b (a := 180) (z := -2 ^ 60) rfl (by norm_num) (by norm_num))
      (b (a := 120) (z := -2 ^ 60) (by dsimp only; ring) (by norm_num) (by norm_num)) (g (by dsimp only; ring) (mp 60).neg)
  have s4 : (⟨2 ^ 180, 2 ^ 120, -2 ^ 60⟩ : EP).add R (-2 ^ 120) = ⟨2 ^ 180, 0, -2 ^ 60⟩ :=
    st ⟨mp 180, mp 120, (mp 60).neg⟩ (mp 120).neg _ _ _ (b (a := 180) (z := -2 ^ 120) rfl (by norm_num) (by norm_num))
      (g (by dsimp only; ring) mz) (g (by dsimp only; ring) (mp 60).neg)
  have s5 : (⟨2 ^ 180, 0, -2 ^ 60⟩ : EP).add R (-2 ^ 180) = ⟨0, 0, -2 ^ 60⟩ :=
    st ⟨mp 180, mz, (mp 60).neg⟩ (mp 180).neg _ _ _ (g (by dsimp only; ring) mz)
      (g (by dsimp only; ring) mz) (g (by dsimp only; ring) (mp 60).neg)
  have s6 : (⟨0, 0, -2 ^ 60⟩ : EP).add R (2 ^ 60) = ⟨2 ^ 60, 0, -2 ^ 60⟩ :=
    st ⟨mz, mz, (mp 60).neg⟩ (mp 60) _ _ _ (g (by dsimp only; ring) (mp 60))
      (g (by dsimp only; ring) mz) (g (by dsimp only; ring) (mp 60).neg)
  have s7 : (⟨2 ^ 60, 0, -2 ^ 60⟩ : EP).add R (1) = ⟨2 ^ 60, 1, -2 ^ 60⟩ :=
    st ⟨mp 60, mz, (mp 60).neg⟩ m1 _ _ _ h61
      (g (by dsimp only; ring) m1) (g (by dsimp only; ring) (mp 60).neg)
  have s8 : (⟨2 ^ 60, 1, -2 ^ 60⟩ : EP).add R (-0) = ⟨2 ^ 60, 1, -2 ^ 60⟩ :=
    st ⟨mp 60, m1, (mp 60).neg⟩ mz.neg _ _ _ (g (by dsimp only; ring) (mp 60))
      (g (by dsimp only; ring) m1) (g (by dsimp only; ring) (mp 60).neg)
  have hd : (⟨2 ^ 60, 1, -2 ^ 60⟩ : EP).toDouble R = 0 := by
    unfold EP.toDouble
    dsimp only
    rw [h61, add_neg_cancel, f0 _ mz]
  refine ⟨⟨2 ^ 60, 1, -2 ^ 60⟩, _, ?_, by unfold EP.rep; dsimp only; ring, hd, rfl, ?_⟩
  · simp only [EP.addAll, List.foldl_cons, List.foldl_nil, s1, s2, s3, s4, s5, s6, s7]
  · show ((⟨2 ^ 60, 1, -2 ^ 60⟩ : EP).add R (-0)).toDouble R = 0
    rw [s8, hd]

/-! ### The hypotheses are met -/

/-- There is a rounding rule for `double`. -/
example : Nonempty (Rounding doubleFormat) := rounding_exists (by decide)

/-- `2^60 + 1 - 2^60 = 1` exactly up to the bound. -/
example (R : Rounding doubleFormat) :
    |((EP.ofDouble 0).addAll R [2 ^ 60, 1, -2 ^ 60]).rep - 1| ≤
      3 ^ 3 * (1 / 2 ^ 53) ^ 3 * (1 + 1 / 2 ^ 53) ^ 9 * (2 ^ 61 + 1) := by
  have m1 : doubleFormat.Mem 1 := by have := mem_double_pow 0; rwa [pow_zero] at this
  have h := C38_fresh_sum R (by decide) [2 ^ 60, 1, -2 ^ 60] (by
    intro x hx
    simp only [List.mem_cons, List.not_mem_nil, or_false] at hx
    rcases hx with rfl | rfl | rfl
    · exact mem_double_pow 60
    · exact m1
    · exact (mem_double_pow 60).neg)
  have e : ([2 ^ 60, 1, -2 ^ 60] : List ℝ).sum = 1 := by simp
  have e2 : (([2 ^ 60, 1, -2 ^ 60] : List ℝ).map abs).sum = 2 ^ 61 + 1 := by
    simp only [List.map_cons, List.map_nil, List.sum_cons, List.sum_nil, abs_neg, abs_one, abs_pow, abs_two]
    norm_num
  rw [e, e2] at h
  exact h

/-- Multiplication of a sum by the `int` 12. -/
example (R : Rounding doubleFormat) (s : EP) (hs : s.Mem doubleFormat) : ∃ k0 : ℕ, ∀ k ≥ k0, ∃ q,
    EP.mulInt R ⟨32, true⟩ k s 12 = .done q := by
  obtain ⟨k0, K, _, _, h⟩ := C38_mul_partial R (by decide) ⟨32, true⟩ (by decide) s hs 12 3 2 (by unfold IntTy.Val; decide) (by decide)
    (by decide) (by decide) (by decide)
  exact ⟨k0, fun k hk => by obtain ⟨q, hq, _⟩ := h k hk; exact ⟨q, hq⟩⟩

/-- Multiplication by 8 is exact. -/
example (R : Rounding doubleFormat) (s : EP) (hs : s.Mem doubleFormat) : ∃ k0 : ℕ, ∀ k ≥ k0, ∃ q,
    EP.mulInt R ⟨32, true⟩ k s (-8) = .done q ∧ q.rep = -8 * s.rep := by
  obtain ⟨k0, K, _, h1, h⟩ := C38_mul_partial R (by decide) ⟨32, true⟩ (by decide) s hs (-8) 1 3 (by unfold IntTy.Val; decide) (by decide)
    (by decide) (by decide) (by decide)
  refine ⟨k0, fun k hk => ?_⟩
  obtain ⟨q, hq, _, hb⟩ := h k hk
  rw [h1 rfl] at hb
  have : tailBound (1 / 2 ^ doubleFormat.p) 0 (2 ^ 3 * |s.v|) (2 ^ 3 * |s.c|) (2 ^ 3 * |s.c2|)
      (((1 : ℤ) - 1 : ℝ) * (2 ^ 3 * s.size)) = 0 := by simp [tailBound]
  rw [this] at hb
  have := sub_eq_zero.1 (abs_eq_zero.1 (le_antisymm hb (abs_nonneg _)))
  exact ⟨q, hq, by rw [this]; push_cast; ring⟩

example (R : Rounding doubleFormat) (s : EP) (k : ℕ) : EP.mulInt R ⟨32, false⟩ k s (2 ^ 31 + 1) = .running :=
  C38_mul_forever R ⟨32, false⟩ rfl (by decide) s _ (by decide) (by decide) k

example (R : Rounding doubleFormat) (s : EP) : EP.mulInt R ⟨32, true⟩ 40 s (2 ^ 30 + 1) = .undefined :=
  C38_mul_undefined R ⟨32, true⟩ rfl (by decide) s _ (by decide) (by decide) 40 (by decide)

example (R : Rounding doubleFormat) : ∃ P, Num.cmp R .lt (.ext (EP.ofDouble 1)) (.int ⟨32, true⟩ 2) = some P ∧ P := by
  have m1 : doubleFormat.Mem 1 := by have := mem_double_pow 0; rwa [pow_zero] at this
  obtain ⟨P, h1, h2⟩ := C38_compare_int R (by decide) ⟨32, true⟩ 1 2 m1 (mem_double_int 2 (by decide))
    (by unfold IntTy.Val; decide) .lt
  exact ⟨P, h1, h2.2 (by simp [Cmp.Holds])⟩

end Hila
