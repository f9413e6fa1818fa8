import Verif.Model.LayoutSearch
import Verif.Props.Layout
import Mathlib.Algebra.BigOperators.Associated
import Mathlib.Data.Nat.Prime.Basic
import Mathlib.Data.Nat.Factorization.Basic
import Mathlib.Tactic.NormNum.Prime
import Mathlib.Tactic.IntervalCases
import Mathlib.Tactic.FinCases

/-!
# C31: choice of the node division
-/

namespace Hila

open BigOperators

/-! ## Factors -/

theorem layoutPrimes_prime : ∀ p ∈ layoutPrimes, p.Prime := by
  intro p hp
  simp only [layoutPrimes, List.mem_cons, List.not_mem_nil, or_false] at hp
  rcases hp with h | h | h | h | h | h | h | h | h | h | h | h <;> subst h <;> norm_num

theorem mem_layoutPrimes (p : ℕ) (hp : p.Prime) : p ∈ layoutPrimes ↔ p ≤ 37 := by
  constructor
  · intro h
    simp only [layoutPrimes, List.mem_cons, List.not_mem_nil, or_false] at h
    omega
  · intro h
    have h2 := hp.two_le
    interval_cases p <;> first | decide | (exfalso; revert hp; norm_num)

theorem divideOut_spec (p : ℕ) (hp : 2 ≤ p) : ∀ fuel i, 0 < i → i ≤ fuel →
    p ^ (divideOut p fuel i).2 * (divideOut p fuel i).1 = i ∧ ¬ p ∣ (divideOut p fuel i).1 ∧
      0 < (divideOut p fuel i).1 := by
  intro fuel
  induction fuel with
  | zero => intro i h1 h2; omega
  | succ fuel ih =>
    intro i h1 h2
    unfold divideOut
    split
    · rename_i hd
      have hdvd := Nat.dvd_of_mod_eq_zero hd
      have hle := Nat.le_of_dvd h1 hdvd
      have hq : 0 < i / p := Nat.div_pos hle (by omega)
      have hlt : i / p < i := Nat.div_lt_self h1 (by omega)
      obtain ⟨k1, k2, k3⟩ := ih (i / p) hq (by omega)
      refine ⟨?_, k2, k3⟩
      dsimp only
      rw [pow_succ, mul_right_comm, k1]
      exact Nat.div_mul_cancel hdvd
    · rename_i hd
      exact ⟨by simp, fun h => hd (Nat.mod_eq_zero_of_dvd h), h1⟩

theorem factorise_spec : ∀ (ps : List ℕ), (∀ p ∈ ps, 2 ≤ p) → ∀ i, 0 < i →
    (factorise ps i).2.prod * (factorise ps i).1 = i ∧ (∀ p ∈ (factorise ps i).2, p ∈ ps) ∧
      (∀ p ∈ ps, ¬ p ∣ (factorise ps i).1) ∧ 0 < (factorise ps i).1 := by
  intro ps
  induction ps with
  | nil => intro _ i hi; exact ⟨by simp [factorise], by simp [factorise], by simp, hi⟩
  | cons p ps ih =>
    intro hps i hi
    obtain ⟨h1, h2, h3⟩ := divideOut_spec p (hps p (by simp)) i i hi (le_refl _)
    obtain ⟨k1, k2, k3, k4⟩ := ih (fun q hq => hps q (by simp [hq])) _ h3
    have hdv : (factorise ps (divideOut p i i).1).1 ∣ (divideOut p i i).1 := ⟨_, by rw [mul_comm]; exact k1.symm⟩
    refine ⟨?_, ?_, ?_, k4⟩
    · show (_ ++ List.replicate _ p).prod * _ = i
      rw [List.prod_append, List.prod_replicate, mul_right_comm]
      show (factorise ps (divideOut p i i).1).2.prod * (factorise ps (divideOut p i i).1).1 *
        p ^ (divideOut p i i).2 = i
      rw [k1, mul_comm, h1]
    · intro q hq
      rcases List.mem_append.1 hq with hq | hq
      · exact List.mem_cons_of_mem _ (k2 q hq)
      · rw [(List.mem_replicate.1 hq).2]; simp
    · intro q hq
      rcases List.mem_cons.1 hq with rfl | hq
      · exact fun hd => h2 (hd.trans hdv)
      · exact k3 q hq

/-- The factors multiply to the number of ranks, or some prime factor is larger than 37. -/
theorem factorise_ok (nn : ℕ) (hnn : 0 < nn) :
    ((factorise layoutPrimes nn).1 = 1 ↔ ∀ p, p.Prime → p ∣ nn → p ≤ 37) ∧
    ((factorise layoutPrimes nn).1 = 1 → (factorise layoutPrimes nn).2.prod = nn) ∧
    ∀ p ∈ (factorise layoutPrimes nn).2, p.Prime := by
  obtain ⟨h1, h2, h3, h4⟩ := factorise_spec layoutPrimes (fun p hp => (layoutPrimes_prime p hp).two_le) nn hnn
  refine ⟨⟨fun h p hp hd => ?_, fun h => ?_⟩, fun h => by rw [h, mul_one] at h1; exact h1,
    fun p hp => layoutPrimes_prime p (h2 p hp)⟩
  · rw [h, mul_one] at h1
    rw [← h1] at hd
    obtain ⟨a, ha, hpa⟩ := (Prime.dvd_prod_iff hp.prime).1 hd
    have := (Nat.prime_dvd_prime_iff_eq hp (layoutPrimes_prime a (h2 a ha))).1 hpa
    rw [← mem_layoutPrimes p hp, this]
    exact h2 a ha
  · by_contra hne
    obtain ⟨p, hp, hd⟩ := Nat.exists_prime_and_dvd hne
    exact h3 p ((mem_layoutPrimes p hp).2 (h p hp (hd.trans ⟨_, by rw [mul_comm]; exact h1.symm⟩))) hd

/-! ## Ghost sites -/

theorem ghostedSize_spec (nn co : ℕ) : ∀ fuel n, (∃ m, n ≤ m ∧ m ≤ n + fuel ∧ nn ∣ m * co) →
    n ≤ ghostedSize nn co fuel n ∧ nn ∣ ghostedSize nn co fuel n * co ∧
      ∀ m, n ≤ m → nn ∣ m * co → ghostedSize nn co fuel n ≤ m := by
  intro fuel
  induction fuel with
  | zero =>
    rintro n ⟨m, h1, h2, h3⟩
    have : m = n := by omega
    subst this
    exact ⟨le_refl _, h3, fun m h _ => h⟩
  | succ fuel ih =>
    rintro n ⟨m, h1, h2, h3⟩
    unfold ghostedSize
    split
    · rename_i hne
      have hmn : m ≠ n := by rintro rfl; exact hne (Nat.mod_eq_zero_of_dvd h3)
      obtain ⟨k1, k2, k3⟩ := ih (n + 1) ⟨m, by omega, by omega, h3⟩
      refine ⟨by omega, k2, fun m' hm' hd => ?_⟩
      have : m' ≠ n := by rintro rfl; exact hne (Nat.mod_eq_zero_of_dvd hd)
      exact k3 m' (by omega) hd
    · rename_i he
      exact ⟨le_refl _, Nat.dvd_of_mod_eq_zero (by simpa using he), fun m h _ => h⟩

section
variable {n : ℕ}

/-- `nsize` is the smallest size not below the lattice size whose volume the number of ranks divides. -/
theorem nsize_spec (nn : ℕ) (hnn : 0 < nn) (L : Site n) (d : Fin n) :
    L d ≤ nsize nn L d ∧ nn ∣ nsize nn L d * cosize L d ∧
      ∀ m, L d ≤ m → nn ∣ m * cosize L d → nsize nn L d ≤ m := by
  apply ghostedSize_spec
  refine ⟨nn * ((L d + nn - 1) / nn), ?_, ?_, ?_⟩
  · have := Nat.div_add_mod (L d + nn - 1) nn
    have := Nat.mod_lt (L d + nn - 1) hnn
    omega
  · have := Nat.div_add_mod (L d + nn - 1) nn
    omega
  · exact ⟨_, by rw [mul_assoc]⟩

theorem cosize_eq (L : Site n) (hL : ∀ d, 0 < L d) (d : Fin n) : cosize L d = ∏ e ∈ Finset.univ.erase d, L e := by
  unfold cosize
  rw [← Finset.mul_prod_erase Finset.univ L (Finset.mem_univ d), Nat.mul_div_cancel_left _ (hL d)]

/-! ## Slicing -/

theorem maxDivisible_spec (s : Slices n) (p : ℕ) (hp : 2 ≤ p) (hpos : ∀ d, 0 < s.nodesiz d)
    (h : ∃ d, p ∣ s.nodesiz d) :
    ∃ d, s.nodesiz d = maxDivisible s p ∧ s.nodesiz d % p = 0 := by
  have key : ∀ (l : List (Fin n)) (m : ℕ), (m = 1 ∨ ∃ d, s.nodesiz d = m ∧ s.nodesiz d % p = 0) →
      let r := l.foldl (fun m d => if s.nodesiz d > m ∧ s.nodesiz d % p = 0 then s.nodesiz d else m) m
      (r = 1 ∨ ∃ d, s.nodesiz d = r ∧ s.nodesiz d % p = 0) ∧ m ≤ r ∧
        ∀ d ∈ l, s.nodesiz d % p = 0 → s.nodesiz d ≤ r := by
    intro l
    induction l with
    | nil => intro m hm; exact ⟨hm, le_refl _, by simp⟩
    | cons a l ih =>
      intro m hm
      obtain ⟨h1, h2, h3⟩ := ih (if s.nodesiz a > m ∧ s.nodesiz a % p = 0 then s.nodesiz a else m) (by
        split
        · rename_i hc; exact Or.inr ⟨a, rfl, hc.2⟩
        · exact hm)
      refine ⟨h1, le_trans ?_ h2, fun d hd hmod => ?_⟩
      · split <;> omega
      · rcases List.mem_cons.1 hd with rfl | hd
        · refine le_trans ?_ h2
          split
          · exact le_refl _
          · rename_i hc
            by_contra hcon
            exact hc ⟨by omega, hmod⟩
        · exact h3 d hd hmod
  obtain ⟨h1, _, h3⟩ := key (List.finRange n) 1 (Or.inl rfl)
  obtain ⟨d, hd⟩ := h
  have hge := h3 d (List.mem_finRange d) (Nat.mod_eq_zero_of_dvd hd)
  have h2 := Nat.le_of_dvd (hpos d) hd
  rcases h1 with h1 | h1
  · rw [h1] at hge; omega
  · exact h1

/-- A prime that divides the volume can always be used. -/
theorem slice_spec (s : Slices n) (p : ℕ) (hp : p.Prime) (hpos : ∀ d, 0 < s.nodesiz d)
    (h : p ∣ ∏ d, s.nodesiz d) :
    ∃ d s', slice s p = some s' ∧ p ∣ s.nodesiz d ∧
      s'.nodesiz = Function.update s.nodesiz d (s.nodesiz d / p) ∧
      s'.ndiv = Function.update s.ndiv d (s.ndiv d * p) := by
  obtain ⟨d0, _, hd0⟩ := (Prime.dvd_finsetProd_iff hp.prime _).1 h
  obtain ⟨d1, h1, h2⟩ := maxDivisible_spec s p hp.two_le hpos ⟨d0, hd0⟩
  have hsome : ∃ d, sliceDir s p = some d ∧ s.nodesiz d % p = 0 := by
    unfold sliceDir
    dsimp only
    split
    · rename_i d hd
      have := List.find?_some hd
      simp only [decide_eq_true_eq] at this
      exact ⟨d, rfl, this.2.2⟩
    · cases hf : (List.finRange n).reverse.find?
        (fun d => decide (s.nodesiz d = maxDivisible s p ∧ s.nodesiz d % p = 0)) with
      | some d =>
        have := List.find?_some hf
        simp only [decide_eq_true_eq] at this
        exact ⟨d, rfl, this.2⟩
      | none =>
        have := List.find?_eq_none.1 hf d1 (by simp)
        rw [decide_eq_true ⟨h1, h2⟩] at this
        exact absurd rfl this
  obtain ⟨d, hd, hm⟩ := hsome
  refine ⟨d, _, by unfold slice; rw [hd], Nat.dvd_of_mod_eq_zero hm, rfl, rfl⟩

theorem slices_spec (fs : List ℕ) (hfs : ∀ p ∈ fs, p.Prime) : ∀ (s : Slices n), (∀ d, 0 < s.nodesiz d) →
    (∀ d, 0 < s.ndiv d) → fs.prod ∣ ∏ d, s.nodesiz d →
    ∃ s', fs.foldlM slice s = some s' ∧ (∀ d, 0 < s'.nodesiz d) ∧ (∀ d, 0 < s'.ndiv d) ∧
      (∀ d, s'.nodesiz d * s'.ndiv d = s.nodesiz d * s.ndiv d) ∧
      (∏ d, s'.ndiv d) = (∏ d, s.ndiv d) * fs.prod := by
  induction fs with
  | nil => intro s h1 h2 _; exact ⟨s, rfl, h1, h2, fun _ => rfl, by simp⟩
  | cons p fs ih =>
    intro s h1 h2 h3
    have hp := hfs p (by simp)
    rw [List.prod_cons] at h3
    obtain ⟨d, t, e1, e2, e3, e4⟩ := slice_spec s p hp h1 ((Dvd.intro _ rfl).trans h3)
    have hq : 0 < s.nodesiz d / p := Nat.div_pos (Nat.le_of_dvd (h1 d) e2) hp.pos
    have hprod : (∏ e, t.nodesiz e) * p = ∏ e, s.nodesiz e := by
      rw [e3, Finset.prod_update_of_mem (Finset.mem_univ d), mul_right_comm, Nat.div_mul_cancel e2,
        ← Finset.prod_sdiff (Finset.subset_univ {d}) (f := s.nodesiz), Finset.prod_singleton, mul_comm]
    have hnd : (∏ e, t.ndiv e) = (∏ e, s.ndiv e) * p := by
      rw [e4, Finset.prod_update_of_mem (Finset.mem_univ d),
        ← Finset.prod_sdiff (Finset.subset_univ {d}) (f := s.ndiv), Finset.prod_singleton]
      ring
    obtain ⟨s', k1, k2, k3, k4, k5⟩ := ih (fun q hq => hfs q (by simp [hq])) t
      (fun e => by
        rw [e3]
        by_cases he : e = d
        · subst he; rw [Function.update_self]; exact hq
        · rw [Function.update_of_ne he]; exact h1 e)
      (fun e => by
        rw [e4]
        by_cases he : e = d
        · subst he; rw [Function.update_self]; exact Nat.mul_pos (h2 e) hp.pos
        · rw [Function.update_of_ne he]; exact h2 e)
      (by
        rw [← hprod, mul_comm p] at h3
        exact Nat.dvd_of_mul_dvd_mul_right hp.pos h3)
    refine ⟨s', by rw [List.foldlM_cons, e1]; exact k1, k2, k3, fun e => ?_, ?_⟩
    · rw [k4 e, e3, e4]
      by_cases he : e = d
      · subst he
        rw [Function.update_self, Function.update_self, mul_comm (s.ndiv e), ← mul_assoc, Nat.div_mul_cancel e2]
      · rw [Function.update_of_ne he, Function.update_of_ne he]
    · rw [k5, hnd, List.prod_cons]; ring

/-- The exit marked "CANNOT HAPPEN" is never reached, and what an attempt gives. -/
theorem attempt_spec (nn : ℕ) (hnn : 0 < nn) (L : Site n) (hL : ∀ d, 0 < L d)
    (hf : (factorise layoutPrimes nn).1 = 1) (mdir : Fin n) :
    ∃ s, attempt nn L (factorise layoutPrimes nn).2 mdir = some s ∧ (∀ d, 0 < s.nodesiz d) ∧ (∀ d, 0 < s.ndiv d) ∧
      (∀ d, s.nodesiz d * s.ndiv d = if d = mdir then nsize nn L d else L d) ∧ ∏ d, s.ndiv d = nn := by
  obtain ⟨_, h2, h3⟩ := factorise_ok nn hnn
  have hvol : ∏ d, (if d = mdir then nsize nn L d else L d) = nsize nn L mdir * cosize L mdir := by
    rw [cosize_eq L hL, ← Finset.mul_prod_erase Finset.univ _ (Finset.mem_univ mdir), if_pos rfl]
    congr 1
    exact Finset.prod_congr rfl fun e he => if_neg (Finset.ne_of_mem_erase he)
  obtain ⟨s, k1, k2, k3, k4, k5⟩ := slices_spec (factorise layoutPrimes nn).2 h3
    ⟨fun d => if d = mdir then nsize nn L d else L d, fun _ => 1⟩
    (fun d => by
      dsimp only
      split
      · exact lt_of_lt_of_le (hL d) (nsize_spec nn hnn L d).1
      · exact hL d)
    (fun _ => Nat.one_pos)
    (by rw [h2 hf]; dsimp only; rw [hvol]; exact (nsize_spec nn hnn L mdir).2.1)
  exact ⟨s, k1, k2, k3, fun d => by rw [k4 d]; dsimp only; rw [mul_one], by rw [k5, h2 hf]; simp⟩

/-- The division in the uneven direction: more sites than divisions times the size less one. -/
theorem uneven_bound (nn : ℕ) (hnn : 0 < nn) (L : Site n) (hL : ∀ d, 0 < L d) (mdir : Fin n) (s : Slices n)
    (hpos : ∀ d, 0 < s.nodesiz d) (hnd : ∀ d, 0 < s.ndiv d)
    (h : ∀ d, s.nodesiz d * s.ndiv d = if d = mdir then nsize nn L d else L d) (hprod : ∏ d, s.ndiv d = nn) :
    (s.nodesiz mdir - 1) * s.ndiv mdir < L mdir ∧ L mdir ≤ s.nodesiz mdir * s.ndiv mdir := by
  obtain ⟨h1, h2, h3⟩ := nsize_spec nn hnn L mdir
  have hm := h mdir
  rw [if_pos rfl] at hm
  refine ⟨?_, by rw [hm]; exact h1⟩
  by_contra hcon
  have hle : L mdir ≤ (s.nodesiz mdir - 1) * s.ndiv mdir := by omega
  have hd : nn ∣ (s.nodesiz mdir - 1) * s.ndiv mdir * cosize L mdir := by
    rw [mul_assoc]
    apply Dvd.dvd.mul_left
    rw [← hprod, cosize_eq L hL, ← Finset.mul_prod_erase Finset.univ _ (Finset.mem_univ mdir)]
    apply Nat.mul_dvd_mul_left
    apply Finset.prod_dvd_prod_of_dvd
    intro e he
    have := h e
    rw [if_neg (Finset.ne_of_mem_erase he)] at this
    exact ⟨s.nodesiz e, by rw [mul_comm]; exact this.symm⟩
  have := h3 _ hle hd
  rw [← hm] at this
  have hlt : (s.nodesiz mdir - 1) * s.ndiv mdir < s.nodesiz mdir * s.ndiv mdir :=
    Nat.mul_lt_mul_of_pos_right (by have := hpos mdir; omega) (hnd mdir)
  omega

/-- Distances of consecutive divisors. -/
theorem divisors_distance (L nd a : ℕ) (hL : 0 < L) (h1 : (a - 1) * nd < L) (h2 : L ≤ a * nd) (k : ℕ)
    (hk : k < nd) :
    a - 1 ≤ (divisors L nd).getD (k + 1) 0 - (divisors L nd).getD k 0 ∧
      (divisors L nd).getD (k + 1) 0 - (divisors L nd).getD k 0 ≤ a := by
  have hle := divisors_le L nd hL (k + 1) (by omega)
  have hle0 := divisors_le L nd hL k (by omega)
  have hs1 := (divisors_spec L nd hL (k + 1) _ (by omega) hle).1 (le_refl _)
  have hs0 := (divisors_spec L nd hL k _ (by omega) hle0).1 (le_refl _)
  rw [Nat.le_div_iff_mul_le hL] at hs1 hs0
  generalize hA : (divisors L nd).getD (k + 1) 0 = A at *
  generalize hB : (divisors L nd).getD k 0 = B at *
  have hkL : (k + 1) * L = k * L + L := by ring
  constructor
  · have hA1 : a - 1 ≤ A := by
      by_contra hcon
      have : A * nd ≤ (a - 1) * nd := Nat.mul_le_mul_right _ (by omega)
      omega
    have hsub : (A - (a - 1)) * nd = A * nd - (a - 1) * nd := Nat.sub_mul _ _ _
    have : B ≤ A - (a - 1) := by
      rw [← hB, divisors_spec L nd hL k _ (by omega) (by omega), Nat.le_div_iff_mul_le hL, hsub]
      omega
    omega
  · by_cases hc : B + a ≤ L
    · have : A ≤ B + a := by
        rw [← hA, divisors_spec L nd hL (k + 1) _ (by omega) hc, Nat.le_div_iff_mul_le hL, Nat.add_mul B a nd]
        omega
      omega
    · omega

/-- The chosen direction has the fewest ghost sites. -/
theorem chooseDir_min (g : Fin n → ℕ) (m : Fin n) : ∀ j, g (chooseDir g m) ≤ g j := by
  have key : ∀ (l : List (Fin n)) (m : Fin n),
      g (l.foldl (fun m j => if g m > g j then j else m) m) ≤ g m ∧
      ∀ j ∈ l, g (l.foldl (fun m j => if g m > g j then j else m) m) ≤ g j := by
    intro l
    induction l with
    | nil => intro m; simp
    | cons a l ih =>
      intro m
      obtain ⟨h1, h2⟩ := ih (if g m > g a then a else m)
      rw [List.foldl_cons]
      have hle : g (if g m > g a then a else m) ≤ g m ∧ g (if g m > g a then a else m) ≤ g a := by
        split <;> constructor <;> omega
      refine ⟨h1.trans hle.1, fun j hj => ?_⟩
      rcases List.mem_cons.1 hj with rfl | hj
      · exact h1.trans hle.2
      · exact h2 j hj
  exact fun j => (key _ m).2 j (List.mem_finRange j)

theorem chooseDir_stays (g : Fin n → ℕ) (m : Fin n) (h : ∀ j, g m ≤ g j) : chooseDir g m = m := by
  unfold chooseDir
  generalize List.finRange n = l
  induction l with
  | nil => rfl
  | cons a l ih =>
    rw [List.foldl_cons, if_neg (by have := h a; omega)]
    exact ih

/-- The four outcomes of a turn. -/
theorem searchTurn_eq (nn : ℕ) (L : Site n) (fs : List ℕ) (st : SearchState n) (m : Fin n) (sl : Slices n)
    (hm : chooseDir st.ghosts st.mdir = m) (ha : attempt nn L fs m = some sl) :
    ((∃ d, sl.nodesiz d < 2) → st.secondtime = false →
      searchTurn nn L fs st = .again ⟨Function.update st.ghosts m (2 ^ 62), m, true⟩) ∧
    ((∃ d, sl.nodesiz d < 2) → st.secondtime = true → searchTurn nn L fs st = .finishrun) ∧
    ((¬ ∃ d, sl.nodesiz d < 2) → st.secondtime = true → searchTurn nn L fs st = .again ⟨st.ghosts, m, true⟩) ∧
    ((¬ ∃ d, sl.nodesiz d < 2) → st.secondtime = false → searchTurn nn L fs st = .leave m sl) := by
  unfold searchTurn
  dsimp only
  rw [hm, ha]
  dsimp only
  refine ⟨fun h1 h2 => ?_, fun h1 h2 => ?_, fun h1 h2 => ?_, fun h1 h2 => ?_⟩
  · rw [if_pos ⟨decide_eq_true h1, by rw [h2]; simp⟩]
  · rw [if_neg (fun h => h.2 h2), if_pos (decide_eq_true h1)]
  · rw [if_neg (fun h => h1 (of_decide_eq_true h.1)), if_neg (fun h => h1 (of_decide_eq_true h)), if_pos h2]
  · rw [if_neg (fun h => h1 (of_decide_eq_true h.1)), if_neg (fun h => h1 (of_decide_eq_true h)),
      if_neg (by rw [h2]; simp)]

theorem setupLayout_leave [NeZero n] (nn : ℕ) (L : Site n) (k : ℕ) (mdir : Fin n) (s : Slices n)
    (h : setupLayout nn L k = .leave mdir s) :
    (factorise layoutPrimes nn).1 = 1 ∧ attempt nn L (factorise layoutPrimes nn).2 mdir = some s ∧
      ∀ d, 2 ≤ s.nodesiz d := by
  unfold setupLayout at h
  dsimp only at h
  split at h
  · cases h
  rename_i hf
  have hf : (factorise layoutPrimes nn).1 = 1 := by simpa using hf
  have key : ∀ k (st : SearchState n), searchLoop nn L (factorise layoutPrimes nn).2 k st = .leave mdir s →
      attempt nn L (factorise layoutPrimes nn).2 mdir = some s ∧ ∀ d, 2 ≤ s.nodesiz d := by
    intro k
    induction k with
    | zero => intro st hst; cases hst
    | succ k ih =>
      intro st hst
      unfold searchLoop at hst
      cases ht : searchTurn nn L (factorise layoutPrimes nn).2 st with
      | finishrun => rw [ht] at hst; cases hst
      | again s' => rw [ht] at hst; exact ih s' hst
      | leave m sl =>
        rw [ht] at hst
        cases hst
        unfold searchTurn at ht
        dsimp only at ht
        split at ht
        · cases ht
        · rename_i sl' hatt
          split at ht
          · cases ht
          · split at ht
            · cases ht
            · rename_i hnf
              split at ht
              · cases ht
              · cases ht
                refine ⟨hatt, fun d => ?_⟩
                by_contra hcon
                exact hnf (decide_eq_true ⟨d, by omega⟩)
  exact ⟨hf, key k _ h⟩

/-! ## The property -/

/-- When the search ends with a division, the division numbers multiply to the number of ranks, and with any map of
the ranks every rank gets a block of at least one site: the printed size in every direction, in one direction possibly
one less. No printed size is below 2. -/
theorem C31_valid_division [NeZero n] (nn : ℕ) (hnn : 0 < nn) (L : Site n) (hL : ∀ d, 0 < L d) (k : ℕ)
    (mdir : Fin n) (s : Slices n) (h : setupLayout nn L k = .leave mdir s) :
    (∏ d, s.ndiv d = nn) ∧ (∀ d, 2 ≤ s.nodesiz d) ∧
    ∀ remap inv, (⟨L, s.ndiv, remap, inv⟩ : Layout n).WF → ∀ r,
      0 < ((⟨L, s.ndiv, remap, inv⟩ : Layout n).nodeinfo r).volume ∧
      (∀ d, d ≠ mdir → ((⟨L, s.ndiv, remap, inv⟩ : Layout n).nodeinfo r).size d = s.nodesiz d) ∧
      (((⟨L, s.ndiv, remap, inv⟩ : Layout n).nodeinfo r).size mdir = s.nodesiz mdir ∨
        ((⟨L, s.ndiv, remap, inv⟩ : Layout n).nodeinfo r).size mdir + 1 = s.nodesiz mdir) := by
  obtain ⟨hf, hatt, h2⟩ := setupLayout_leave nn L k mdir s h
  obtain ⟨s', k1, k2, k3, k4, k5⟩ := attempt_spec nn hnn L hL hf mdir
  rw [hatt] at k1
  cases k1
  refine ⟨k5, h2, fun remap inv hwf r => ?_⟩
  have hsize : ∀ d, s.nodesiz d - 1 ≤ ((⟨L, s.ndiv, remap, inv⟩ : Layout n).nodeinfo r).size d ∧
      ((⟨L, s.ndiv, remap, inv⟩ : Layout n).nodeinfo r).size d ≤ s.nodesiz d ∧
      (d ≠ mdir → ((⟨L, s.ndiv, remap, inv⟩ : Layout n).nodeinfo r).size d = s.nodesiz d) := by
    intro d
    have hdl := digits_lt s.ndiv (inv r) hwf.ndiv_pos d
    rw [nodeinfo_eq, ofBox_size]
    unfold Layout.boxSize Layout.boxMin
    dsimp only
    have hpos := k3 d
    by_cases hd : d = mdir
    · subst hd
      obtain ⟨u1, u2⟩ := uneven_bound nn hnn L hL d s k2 k3 k4 k5
      obtain ⟨w1, w2⟩ := divisors_distance (L d) (s.ndiv d) (s.nodesiz d) (hL d) u1 u2 _ hdl
      exact ⟨w1, w2, fun hne => absurd rfl hne⟩
    · have he := k4 d
      rw [if_neg hd] at he
      have u1 : (s.nodesiz d - 1) * s.ndiv d < L d := by
        rw [← he]
        exact Nat.mul_lt_mul_of_pos_right (by have := k2 d; omega) hpos
      have u1' : (s.nodesiz d + 1 - 1) * s.ndiv d ≤ L d := by rw [Nat.add_sub_cancel, he]
      obtain ⟨w1, w2⟩ := divisors_distance (L d) (s.ndiv d) (s.nodesiz d) (hL d) u1 (by rw [he]) _ hdl
      have exact_div : ∀ j, j ≤ s.ndiv d → (divisors (L d) (s.ndiv d)).getD j 0 = j * s.nodesiz d := by
        intro j hj
        have hjL : j * s.nodesiz d ≤ L d := by rw [← he, mul_comm]; exact Nat.mul_le_mul_left _ hj
        have hup : (divisors (L d) (s.ndiv d)).getD j 0 ≤ j * s.nodesiz d := by
          rw [divisors_spec (L d) _ (hL d) j _ hj hjL, Nat.le_div_iff_mul_le (hL d), mul_assoc, he]
        refine le_antisymm hup ?_
        have hself := (divisors_spec (L d) (s.ndiv d) (hL d) j _ hj (hup.trans hjL)).1 (le_refl _)
        rw [Nat.le_div_iff_mul_le (hL d)] at hself
        have hjm : j * L d = j * s.nodesiz d * s.ndiv d := by rw [mul_assoc, he]
        rw [hjm] at hself
        exact Nat.le_of_mul_le_mul_right hself hpos
      refine ⟨w1, w2, fun _ => ?_⟩
      rw [exact_div _ (Nat.succ_le_of_lt hdl), exact_div _ hdl.le, Nat.succ_mul, Nat.add_sub_cancel_left]
  refine ⟨?_, fun d hd => (hsize d).2.2 hd, ?_⟩
  · rw [(C02_box_valid _ hwf r).2.2]
    refine Finset.prod_pos fun d _ => ?_
    have := (hsize d).1
    have := h2 d
    omega
  · have := hsize mdir
    have := h2 mdir
    omega

/-- The printed lengths are right: of the blocks along the uneven direction, `nsize - L` are one site shorter and the
others have the full size. -/
theorem C31_printed_lengths [NeZero n] (nn : ℕ) (hnn : 0 < nn) (L : Site n) (hL : ∀ d, 0 < L d) (k : ℕ)
    (mdir : Fin n) (s : Slices n) (h : setupLayout nn L k = .leave mdir s) :
    ((Finset.range (s.ndiv mdir)).filter fun i =>
      (divisors (L mdir) (s.ndiv mdir)).getD (i + 1) 0 - (divisors (L mdir) (s.ndiv mdir)).getD i 0 + 1 =
        s.nodesiz mdir).card = nsize nn L mdir - L mdir ∧
    ((Finset.range (s.ndiv mdir)).filter fun i =>
      (divisors (L mdir) (s.ndiv mdir)).getD (i + 1) 0 - (divisors (L mdir) (s.ndiv mdir)).getD i 0 =
        s.nodesiz mdir).card = s.ndiv mdir - (nsize nn L mdir - L mdir) := by
  obtain ⟨hf, hatt, h2⟩ := setupLayout_leave nn L k mdir s h
  obtain ⟨s', k1, k2, k3, k4, k5⟩ := attempt_spec nn hnn L hL hf mdir
  rw [hatt] at k1
  cases k1
  obtain ⟨u1, u2⟩ := uneven_bound nn hnn L hL mdir s k2 k3 k4 k5
  have hns := k4 mdir
  rw [if_pos rfl] at hns
  rw [← hns]
  have h2m := h2 mdir
  generalize hN : s.ndiv mdir = N at *
  generalize hA : s.nodesiz mdir = a at *
  generalize L mdir = l at *
  have hl : 0 < l := by omega
  have hdist := divisors_distance l N a hl u1 u2
  have hmono := divisors_mono l N hl
  have h0 : (divisors l N).getD 0 0 = 0 := by
    have := (divisors_spec l N hl 0 0 (by omega) (by omega)).2 (Nat.zero_le _)
    omega
  have hlast : (divisors l N).getD N 0 = l := by
    have hle := divisors_le l N hl N (le_refl _)
    refine le_antisymm hle ?_
    have := (divisors_spec l N hl N _ (le_refl _) hle).1 (le_refl _)
    rw [Nat.le_div_iff_mul_le hl, mul_comm N] at this
    have hNpos : 0 < N := hN ▸ k3 mdir
    exact Nat.le_of_mul_le_mul_right this hNpos
  generalize hD : (fun j => (divisors l N).getD j 0) = D
  have hDv : ∀ j, (divisors l N).getD j 0 = D j := fun j => by rw [← hD]
  simp only [hDv] at hdist hmono h0 hlast ⊢
  have key : ∀ M, M ≤ N →
      D M + ((Finset.range M).filter fun i => D (i + 1) - D i + 1 = a).card = a * M ∧
      ((Finset.range M).filter fun i => D (i + 1) - D i + 1 = a).card +
        ((Finset.range M).filter fun i => D (i + 1) - D i = a).card = M := by
    intro M
    induction M with
    | zero => intro _; simp [h0]
    | succ M ih =>
      intro hM
      obtain ⟨i1, i2⟩ := ih (by omega)
      have hd := hdist M (by omega)
      have hm := hmono M (by omega)
      rw [Finset.range_add_one, Finset.filter_insert, Finset.filter_insert, Nat.mul_succ]
      have hnot : M ∉ Finset.range M := by simp
      by_cases hc : D (M + 1) - D M + 1 = a
      · have hc' : ¬ D (M + 1) - D M = a := by omega
        rw [if_pos hc, if_neg hc', Finset.card_insert_of_notMem (by simp)]
        omega
      · have hc' : D (M + 1) - D M = a := by omega
        rw [if_neg hc, if_pos hc', Finset.card_insert_of_notMem (by simp)]
        omega
  obtain ⟨r1, r2⟩ := key N (le_refl _)
  rw [hlast] at r1
  omega

/-- Which runs end: all but those whose number of ranks has only prime factors up to 37, whose first attempt fails and
whose second attempt succeeds. `m₁`, `m₂` are the directions of uneven division of the two attempts. -/
theorem C31_ends_iff [NeZero n] (nn : ℕ) (hnn : 0 < nn) (L : Site n) (hL : ∀ d, 0 < L d) :
    let m₁ := chooseDir (ghosts0 nn L) 0
    let m₂ := chooseDir (Function.update (ghosts0 nn L) m₁ (2 ^ 62)) m₁
    (∃ k, ∀ s, setupLayout nn L k ≠ .again s) ↔
        ((∃ p, p.Prime ∧ p ∣ nn ∧ 37 < p) ∨
          (∃ s, attempt nn L (factorise layoutPrimes nn).2 m₁ = some s ∧ ∀ d, 2 ≤ s.nodesiz d) ∨
          ∃ s, attempt nn L (factorise layoutPrimes nn).2 m₂ = some s ∧ ∃ d, s.nodesiz d < 2) := by
  intro m1 m2
  let g1 := ghosts0 nn L
  let g2 := Function.update g1 m1 (2 ^ 62)
  by_cases hf : (factorise layoutPrimes nn).1 = 1
  swap
  · constructor
    · intro _
      left
      by_contra hcon
      exact hf ((factorise_ok nn hnn).1.2 fun p hp hd => by
        by_contra hlt
        exact hcon ⟨p, hp, hd, by omega⟩)
    · intro _
      refine ⟨0, fun s => ?_⟩
      unfold setupLayout
      dsimp only
      rw [if_pos hf]
      exact fun h => by cases h
  have hset : ∀ k, setupLayout nn L k = searchLoop nn L (factorise layoutPrimes nn).2 k ⟨g1, 0, false⟩ := by
    intro k
    unfold setupLayout
    dsimp only
    rw [if_neg (by simpa using hf)]
  obtain ⟨s1, a1, -⟩ := attempt_spec nn hnn L hL hf m1
  obtain ⟨s2, a2, -⟩ := attempt_spec nn hnn L hL hf m2
  have hnop : ¬ ∃ p, p.Prime ∧ p ∣ nn ∧ 37 < p := fun ⟨p, hp, hd, hlt⟩ => by
    have := (factorise_ok nn hnn).1.1 hf p hp hd; omega
  by_cases hs1 : ∀ d, 2 ≤ s1.nodesiz d
  · constructor
    · intro _; exact Or.inr (Or.inl ⟨s1, a1, hs1⟩)
    · intro _
      refine ⟨1, fun s => ?_⟩
      rw [hset]
      have hnf : ¬ ∃ d, s1.nodesiz d < 2 := fun ⟨d, hd⟩ => by have := hs1 d; omega
      have : searchTurn nn L (factorise layoutPrimes nn).2 ⟨g1, 0, false⟩ = .leave m1 s1 := by
        exact (searchTurn_eq nn L _ ⟨g1, 0, false⟩ m1 s1 rfl a1).2.2.2 hnf rfl
      unfold searchLoop
      rw [this]
      exact fun h => by cases h
  · have hf1 : ∃ d, s1.nodesiz d < 2 := by
      by_contra hcon
      exact hs1 fun d => by by_contra hlt; exact hcon ⟨d, by omega⟩
    have t1 : searchTurn nn L (factorise layoutPrimes nn).2 ⟨g1, 0, false⟩ = .again ⟨g2, m1, true⟩ := by
      exact (searchTurn_eq nn L _ ⟨g1, 0, false⟩ m1 s1 rfl a1).1 hf1 rfl
    by_cases hs2 : ∃ d, s2.nodesiz d < 2
    · constructor
      · intro _; exact Or.inr (Or.inr ⟨s2, a2, hs2⟩)
      · intro _
        refine ⟨2, fun s => ?_⟩
        rw [hset]
        have t2 : searchTurn nn L (factorise layoutPrimes nn).2 ⟨g2, m1, true⟩ = .finishrun := by
          exact (searchTurn_eq nn L _ ⟨g2, m1, true⟩ m2 s2 rfl a2).2.1 hs2 rfl
        unfold searchLoop
        rw [t1]
        dsimp only
        unfold searchLoop
        rw [t2]
        exact fun h => by cases h
    · have hno : ¬ ((∃ p, p.Prime ∧ p ∣ nn ∧ 37 < p) ∨
          (∃ s, attempt nn L (factorise layoutPrimes nn).2 m1 = some s ∧ ∀ d, 2 ≤ s.nodesiz d) ∨
          ∃ s, attempt nn L (factorise layoutPrimes nn).2 m2 = some s ∧ ∃ d, s.nodesiz d < 2) := by
        rintro (h | ⟨s, h, h'⟩ | ⟨s, h, h'⟩)
        · exact hnop h
        · rw [a1] at h; cases h; exact hs1 h'
        · rw [a2] at h; cases h; exact hs2 h'
      constructor
      · rintro ⟨k, hk⟩
        exfalso
        have hidem : chooseDir g2 m2 = m2 := by
          exact chooseDir_stays g2 m2 (chooseDir_min g2 m1)
        have t2 : ∀ m, chooseDir g2 m = m2 →
            searchTurn nn L (factorise layoutPrimes nn).2 ⟨g2, m, true⟩ = .again ⟨g2, m2, true⟩ := by
          intro m hm
          exact (searchTurn_eq nn L _ ⟨g2, m, true⟩ m2 s2 hm a2).2.2.1 hs2 rfl
        have hloop : ∀ k m, chooseDir g2 m = m2 →
            ∃ s, searchLoop nn L (factorise layoutPrimes nn).2 k ⟨g2, m, true⟩ = .again s := by
          intro k
          induction k with
          | zero => intro m _; exact ⟨_, rfl⟩
          | succ k ih =>
            intro m hm
            unfold searchLoop
            rw [t2 m hm]
            exact ih m2 hidem
        cases k with
        | zero => exact hk _ (by rw [hset]; rfl)
        | succ k =>
          obtain ⟨s, hs⟩ := hloop k m1 rfl
          apply hk s
          rw [hset]
          unfold searchLoop
          rw [t1]
          exact hs
      · intro h; exact absurd h hno

/-- If the number of ranks divides the number of sites the search ends.
(`_partial`: otherwise it may not end, see `C31_never_ends`.) -/
theorem C31_ends_partial [NeZero n] (nn : ℕ) (hnn : 0 < nn) (L : Site n) (hL : ∀ d, 0 < L d)
    (h : nn ∣ ∏ d, L d) : ∃ k, ∀ s, setupLayout nn L k ≠ .again s := by
  refine (C31_ends_iff nn hnn L hL).2 ?_
  generalize chooseDir (ghosts0 nn L) 0 = m1
  generalize chooseDir (Function.update (ghosts0 nn L) m1 (2 ^ 62)) m1 = m2
  by_cases hp : ∃ p, p.Prime ∧ p ∣ nn ∧ 37 < p
  · exact Or.inl hp
  right
  have hns : ∀ d, nsize nn L d = L d := by
    intro d
    obtain ⟨h1, _, h3⟩ := nsize_spec nn hnn L d
    refine le_antisymm (h3 _ (le_refl _) ?_) h1
    rw [cosize_eq L hL, Finset.mul_prod_erase Finset.univ L (Finset.mem_univ d)]
    exact h
  have hsame : attempt nn L (factorise layoutPrimes nn).2 m1 = attempt nn L (factorise layoutPrimes nn).2 m2 := by
    unfold attempt
    congr 2
    funext d
    rw [hns d]
    simp
  have hf : (factorise layoutPrimes nn).1 = 1 := (factorise_ok nn hnn).1.2 fun p hpp hd => by
    by_contra hlt
    exact hp ⟨p, hpp, hd, by omega⟩
  obtain ⟨s, a, -⟩ := attempt_spec nn hnn L hL hf m1
  by_cases hs : ∀ d, 2 ≤ s.nodesiz d
  · exact Or.inl ⟨s, a, hs⟩
  · refine Or.inr ⟨s, hsame ▸ a, ?_⟩
    by_contra hcon
    exact hs fun d => by by_contra hlt; exact hcon ⟨d, by omega⟩

end

/-- A lattice of 2 x 4 sites on 3 ranks: the first attempt would make blocks of size 1, the second one succeeds, and
the loop goes on for ever. -/
theorem C31_never_ends : ∀ k, ∃ s, setupLayout 3 (![2, 4] : Site 2) k = .again s := by
  intro k
  by_contra hcon
  have h := (C31_ends_iff 3 (by norm_num) (![2, 4] : Site 2) (by decide)).1
    ⟨k, fun s hs => hcon ⟨s, hs⟩⟩
  have e1 : chooseDir (ghosts0 3 (![2, 4] : Site 2)) 0 = 0 := by decide
  have e2 : chooseDir (Function.update (ghosts0 3 (![2, 4] : Site 2)) 0 (2 ^ 62)) 0 = 1 := by decide
  rw [e1, e2] at h
  rcases h with ⟨p, hp, hd, hlt⟩ | ⟨s, h1, h2⟩ | ⟨s, h1, d, h2⟩
  · have := Nat.le_of_dvd (by norm_num) hd
    omega
  · have : (attempt 3 (![2, 4] : Site 2) (factorise layoutPrimes 3).2 0).map (fun s => s.nodesiz 0) = some 1 := by
      decide
    rw [h1] at this
    have h0 := h2 0
    simp only [Option.map_some, Option.some.injEq] at this
    omega
  · have : (attempt 3 (![2, 4] : Site 2) (factorise layoutPrimes 3).2 1).map
        (fun s => decide (∀ d, 2 ≤ s.nodesiz d)) = some true := by decide
    rw [h1] at this
    simp only [Option.map_some, Option.some.injEq, decide_eq_true_eq] at this
    have := this d
    omega

/-- Hypotheses of `C31_valid_division` with an uneven division: 5 x 8 sites on 3 ranks. -/
example : ∃ m s, setupLayout 3 (![5, 8] : Site 2) 1 = .leave m s ∧ s.ndiv 1 = 3 ∧ s.nodesiz 1 = 3 ∧ m = 1 := by
  refine ⟨_, _, rfl, ?_, ?_, ?_⟩ <;> decide

end Hila
