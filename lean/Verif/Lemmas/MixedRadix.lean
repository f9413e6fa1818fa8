import Verif.Model.Layout
import Mathlib.Tactic.Ring
import Mathlib.Tactic.Linarith

/-! Mixed radix arithmetic. -/

namespace Hila

open BigOperators

/-- Horner form of the mixed radix value. -/
def lex : {n : ℕ} → (s c : Fin n → ℕ) → ℕ
  | 0, _, _ => 0
  | _ + 1, s, c => c 0 + s 0 * lex (Fin.tail s) (Fin.tail c)

theorem lex_lt {n : ℕ} (s c : Fin n → ℕ) (h : ∀ d, c d < s d) : lex s c < ∏ d, s d := by
  induction n with
  | zero => simp [lex]
  | succ n ih =>
    rw [lex, Fin.prod_univ_succ]
    have h1 := ih (Fin.tail s) (Fin.tail c) (fun d => h d.succ)
    have h0 := h 0
    have : (∏ i : Fin n, s i.succ) = ∏ i, Fin.tail s i := rfl
    rw [this]
    calc c 0 + s 0 * lex (Fin.tail s) (Fin.tail c)
        < s 0 + s 0 * lex (Fin.tail s) (Fin.tail c) := by omega
      _ = s 0 * (lex (Fin.tail s) (Fin.tail c) + 1) := by ring
      _ ≤ s 0 * _ := Nat.mul_le_mul_left _ h1

theorem digits_lt {n : ℕ} (s : Fin n → ℕ) (i : ℕ) (h : ∀ d, 0 < s d) (d : Fin n) :
    digits s i d < s d := by
  induction n generalizing i with
  | zero => exact d.elim0
  | succ n ih =>
    rw [digits]
    refine Fin.cases ?_ (fun j => ?_) d
    · simp; exact Nat.mod_lt _ (h 0)
    · simp; exact ih (Fin.tail s) (i / s 0) (fun d => h d.succ) j

theorem lex_digits {n : ℕ} (s : Fin n → ℕ) (i : ℕ) (h : i < ∏ d, s d) :
    lex s (digits s i) = i := by
  induction n generalizing i with
  | zero => simp at h; simp [lex, h]
  | succ n ih =>
    rw [digits, lex]
    simp only [Fin.cons_zero, Fin.tail_cons]
    rw [ih]
    · exact Nat.mod_add_div i (s 0)
    · rw [Fin.prod_univ_succ] at h
      exact Nat.div_lt_of_lt_mul h

theorem digits_lex {n : ℕ} (s c : Fin n → ℕ) (h : ∀ d, c d < s d) :
    digits s (lex s c) = c := by
  induction n with
  | zero => funext d; exact d.elim0
  | succ n ih =>
    rw [digits, lex]
    have h0 := h 0
    have e1 : (c 0 + s 0 * lex (Fin.tail s) (Fin.tail c)) % s 0 = c 0 := by
      rw [Nat.add_mul_mod_self_left]; exact Nat.mod_eq_of_lt h0
    have e2 : (c 0 + s 0 * lex (Fin.tail s) (Fin.tail c)) / s 0 = lex (Fin.tail s) (Fin.tail c) := by
      rw [Nat.add_mul_div_left _ _ (by omega), Nat.div_eq_of_lt h0, zero_add]
    rw [e1, e2, ih (Fin.tail s) (Fin.tail c) (fun d => h d.succ)]
    exact Fin.cons_self_tail c

theorem lex_inj {n : ℕ} (s c e : Fin n → ℕ) (hc : ∀ d, c d < s d) (he : ∀ d, e d < s d)
    (h : lex s c = lex s e) : c = e := by
  rw [← digits_lex s c hc, h, digits_lex s e he]

theorem pos_of_lt_prod {n : ℕ} (s : Fin n → ℕ) (i : ℕ) (h : i < ∏ d, s d) (d : Fin n) : 0 < s d := by
  by_contra h0
  have : s d = 0 := by omega
  rw [Finset.prod_eq_zero (Finset.mem_univ d) this] at h
  omega

theorem lex_eq_sum {n : ℕ} (s c : Fin n → ℕ) : ∑ d, c d * sizeFactor s d = lex s c := by
  induction n with
  | zero => simp [lex]
  | succ n ih =>
    rw [Fin.sum_univ_succ, lex, ← ih (Fin.tail s) (Fin.tail c), Finset.mul_sum]
    congr 1
    · have : sizeFactor s 0 = 1 := by
        unfold sizeFactor
        show (∏ j : Fin 0, _) = _
        simp
      rw [this, mul_one]
    · apply Finset.sum_congr rfl
      intro d _
      have : sizeFactor s d.succ = s 0 * sizeFactor (Fin.tail s) d := by
        unfold sizeFactor
        show (∏ j : Fin (d.val + 1), s ⟨j.val, _⟩) = _
        rw [Fin.prod_univ_succ]
        rfl
      rw [this]; simp only [Fin.tail]; ring

theorem foldr_eq_lex {n : ℕ} (s c : Fin n → ℕ) :
    (List.finRange n).foldr (fun dir i => i * s dir + c dir) 0 = lex s c := by
  induction n with
  | zero => simp [lex]
  | succ n ih =>
    rw [List.finRange_succ, List.foldr_cons, List.foldr_map, lex, ← ih (Fin.tail s) (Fin.tail c)]
    simp only [Fin.tail]
    ring

/-- Consecutive indices `2k`, `2k+1` are sites of different parity. -/
theorem digits_parity_pair {n : ℕ} (s : Fin n → ℕ) (k : ℕ) (h : 2 * k + 1 < ∏ d, s d) :
    ((∑ d, digits s (2 * k) d) + ∑ d, digits s (2 * k + 1) d) % 2 = 1 := by
  induction n generalizing k with
  | zero => simp at h
  | succ n ih =>
    have hs0 : 0 < s 0 := pos_of_lt_prod s _ h 0
    rw [digits, digits, Fin.sum_univ_succ, Fin.sum_univ_succ]
    simp only [Fin.cons_zero, Fin.cons_succ]
    have hm := Nat.mod_add_div (2 * k) (s 0)
    have hlt := Nat.mod_lt (2 * k) hs0
    set c := (2 * k) % s 0 with hc
    set r := (2 * k) / s 0 with hr
    by_cases hlast : c + 1 < s 0
    · -- no carry
      have e1 : (2 * k + 1) % s 0 = c + 1 := by
        rw [← hm, show c + s 0 * r + 1 = (c + 1) + s 0 * r by ring, Nat.add_mul_mod_self_left,
          Nat.mod_eq_of_lt hlast]
      have e2 : (2 * k + 1) / s 0 = r := by
        rw [← hm, show c + s 0 * r + 1 = (c + 1) + s 0 * r by ring,
          Nat.add_mul_div_left _ _ hs0, Nat.div_eq_of_lt hlast, zero_add]
      rw [e1, e2]; omega
    · have hc1 : c + 1 = s 0 := by omega
      have e1 : (2 * k + 1) % s 0 = 0 := by
        rw [← hm, show c + s 0 * r + 1 = (c + 1) + s 0 * r by ring, hc1]
        simp
      have e2 : (2 * k + 1) / s 0 = r + 1 := by
        rw [← hm, show c + s 0 * r + 1 = s 0 * (r + 1) by rw [← hc1]; ring]
        exact Nat.mul_div_cancel_left _ hs0
      -- s 0 must be odd, r even
      have hmul : s 0 * (r + 1) = 2 * k + 1 := by rw [← hm, ← hc1]; ring
      have hodd : s 0 % 2 = 1 := by
        by_contra hev
        have : s 0 % 2 = 0 := by omega
        have h2 : (s 0 * (r + 1)) % 2 = 0 := by rw [Nat.mul_mod, this]; simp
        omega
      have hrev : (r + 1) % 2 = 1 := by
        by_contra hev
        have : (r + 1) % 2 = 0 := by omega
        have h2 : (s 0 * (r + 1)) % 2 = 0 := by rw [Nat.mul_mod, this]; simp
        omega
      obtain ⟨k', hk'⟩ : ∃ k', r = 2 * k' := ⟨r / 2, by omega⟩
      rw [e1, e2, hk']
      have hb : 2 * k' + 1 < ∏ d, Fin.tail s d := by
        rw [Fin.prod_univ_succ] at h
        have h' : s 0 * (r + 1) < s 0 * ∏ d, Fin.tail s d := by rw [hmul]; exact h
        have := Nat.lt_of_mul_lt_mul_left h'
        omega
      have := ih (Fin.tail s) k' hb
      omega

/-- For an odd volume the last index is a site with an even coordinate sum. -/
theorem digits_parity_last {n : ℕ} (s : Fin n → ℕ) (k : ℕ) (h : ∏ d, s d = 2 * k + 1) :
    (∑ d, digits s (2 * k) d) % 2 = 0 := by
  induction n generalizing k with
  | zero => simp
  | succ n ih =>
    have hs0 : 0 < s 0 := pos_of_lt_prod s (2 * k) (by omega) 0
    rw [Fin.prod_univ_succ] at h
    have hp : (∏ d, Fin.tail s d) % 2 = 1 := by
      by_contra hev
      have h0 : (∏ i : Fin n, s i.succ) % 2 = 0 := by
        have : (∏ i : Fin n, s i.succ) = ∏ d, Fin.tail s d := rfl
        omega
      have h2 : (s 0 * ∏ i : Fin n, s i.succ) % 2 = 0 := by rw [Nat.mul_mod, h0]; simp
      omega
    have hsodd : s 0 % 2 = 1 := by
      by_contra hev
      have h0 : s 0 % 2 = 0 := by omega
      have h2 : (s 0 * ∏ i : Fin n, s i.succ) % 2 = 0 := by rw [Nat.mul_mod, h0]; simp
      omega
    obtain ⟨k', hk'⟩ : ∃ k', ∏ d, Fin.tail s d = 2 * k' + 1 :=
      ⟨(∏ d, Fin.tail s d) / 2, by omega⟩
    have hk'2 : (∏ i : Fin n, s i.succ) = 2 * k' + 1 := hk'
    rw [hk'2] at h
    have hdecomp : 2 * k = (s 0 - 1) + s 0 * (2 * k') := by
      have : s 0 * (2 * k' + 1) = s 0 * (2 * k') + s 0 := by ring
      omega
    rw [digits, Fin.sum_univ_succ]
    simp only [Fin.cons_zero, Fin.cons_succ]
    have e1 : (2 * k) % s 0 = s 0 - 1 := by
      rw [hdecomp, Nat.add_mul_mod_self_left, Nat.mod_eq_of_lt (by omega)]
    have e2 : (2 * k) / s 0 = 2 * k' := by
      rw [hdecomp, Nat.add_mul_div_left _ _ hs0, Nat.div_eq_of_lt (by omega), zero_add]
    rw [e1, e2]
    have := ih (Fin.tail s) k' hk'
    omega

end Hila
