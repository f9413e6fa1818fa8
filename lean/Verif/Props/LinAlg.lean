import Mathlib.Analysis.Complex.Basic
import Verif.Lemmas.LinAlg

/-!
# C51, C52: determinants and LU decomposition

The specification is Mathlib's determinant, matrix product and inverse.
-/

namespace Hila

set_option linter.unusedSectionVars false

variable {𝕜 : Type} [RCLike 𝕜] {n : ℕ}

/-! ### Laplace expansion -/

theorem detLaplace_eq : ∀ (n : ℕ) (a : Matrix (Fin n) (Fin n) 𝕜), 0 < n → detLaplace n a = some a.det
  | 0, _, h => absurd h (lt_irrefl _)
  | 1, a, _ => by rw [detLaplace, Matrix.det_fin_one]
  | 2, a, _ => by rw [detLaplace, Matrix.det_fin_two]; congr 1; ring
  | 3, a, _ => by rw [detLaplace, Matrix.det_fin_three]; congr 1; ring
  | n + 4, a, _ => by
    rw [detLaplace]
    obtain ⟨s, h1, h2⟩ := forLoop_run (n := n + 4) (hi := n + 4)
      (fun t (s : 𝕜 × 𝕜) => s = (psum (fun i : Fin (n + 4) => (-1) ^ i.val * a 0 i *
        (a.submatrix Fin.succ i.succAbove).det) t, (-1) ^ t))
      (fun i (s : 𝕜 × 𝕜) => (detLaplace (n + 3) (minorMat a 0 i)).map fun d => (s.1 + s.2 * d * a 0 i, s.2 * (-1)))
      le_rfl (by
        intro i s _ hs
        rw [detLaplace_eq (n + 3) _ (by omega)]
        refine ⟨_, rfl, ?_⟩
        rw [hs, psum_succ]
        have : minorMat a 0 i = a.submatrix Fin.succ i.succAbove := by
          ext p q
          simp [minorMat]
        rw [this]
        refine Prod.ext ?_ ?_
        · show _ + _ = _ + _
          congr 1; ring
        · show _ * _ = _
          rw [pow_succ]) 0 (0, 1) (by omega) (by rw [psum_zero, pow_zero])
    rw [h1, h2, psum_all, ← Matrix.det_succ_row_zero]
    rfl

/-! ### The columns of `det_lu` -/

theorem luUpper_run (j : Fin n) (a : Matrix (Fin n) (Fin n) 𝕜) :
    ∃ b, luUpper j a = some b ∧ (∀ i c, c ≠ j → b i c = a i c) ∧ (∀ i, j ≤ i → b i j = a i j) ∧
      ∀ i, i < j → a i j = psum (fun k => b i k * b k j) i.val + b i j := by
  obtain ⟨b, hb, h1, h2, h3⟩ := forLoop_run (n := n) (hi := j.val)
    (fun t (b : Matrix (Fin n) (Fin n) 𝕜) => (∀ i c, c ≠ j → b i c = a i c) ∧ (∀ i : Fin n, t ≤ i.val → b i j = a i j) ∧
      ∀ i : Fin n, i.val < t → a i j = psum (fun k => b i k * b k j) i.val + b i j)
    (fun i a => forLoop n i.val (fun k a => some (setE a i j (a i j - a i k * a k j))) 0 a) j.isLt.le
    (by
      rintro i b hij ⟨h1, h2, h3⟩
      have hij' : i < j := hij
      obtain ⟨b', hb', hP⟩ := forLoop_run (n := n) (hi := i.val)
        (fun t (b' : Matrix (Fin n) (Fin n) 𝕜) => b' = setE b i j (b i j - psum (fun k => b i k * b k j) t))
        (fun k a => some (setE a i j (a i j - a i k * a k j))) i.isLt.le
        (by
          intro k b' hk hb'
          refine ⟨_, rfl, ?_⟩
          have hki : k ≠ i := fun e => by subst e; exact lt_irrefl _ hk
          have hkj : k ≠ j := fun e => by subst e; exact absurd hk (by omega)
          subst hb'
          ext p q
          rw [setE_same, setE_ne _ _ _ i k _ (by simp [hkj]), setE_ne _ _ _ k j _ (by simp [hki]), setE_apply, setE_apply,
            setE_apply, psum_succ]
          split_ifs
          · ring
          · rfl) 0 b (Nat.zero_le _) (by
          rw [psum_zero, sub_zero]
          ext p q
          rw [setE_apply]
          split_ifs with h
          · rw [h.1, h.2]
          · rfl)
      refine ⟨b', hb', ?_⟩
      subst hP
      have hcol : ∀ p q, q ≠ j → setE b i j (b i j - psum (fun k => b i k * b k j) i.val) p q = b p q :=
        fun p q hq => setE_ne _ _ _ _ _ _ (fun h => hq h.2)
      have hrow : ∀ p q, p ≠ i → setE b i j (b i j - psum (fun k => b i k * b k j) i.val) p q = b p q :=
        fun p q hp => setE_ne _ _ _ _ _ _ (fun h => hp h.1)
      refine ⟨?_, ?_, ?_⟩
      · intro p c hc; rw [hcol p c hc, h1 p c hc]
      · intro p hp
        rw [hrow p j (fun e => by subst e; omega), h2 p (by omega)]
      · intro p hp
        have hsum : psum (fun k => setE b i j (b i j - psum (fun k => b i k * b k j) i.val) p k *
            setE b i j (b i j - psum (fun k => b i k * b k j) i.val) k j) p.val = psum (fun k => b p k * b k j) p.val := by
          apply psum_congr
          intro k hk
          rw [hcol p k (fun e => by subst e; omega), hrow k j (fun e => by subst e; omega)]
        rw [hsum]
        by_cases hpi : p = i
        · subst hpi
          rw [setE_same, h2 p le_rfl]; ring
        · rw [hrow p j hpi]
          exact h3 p (lt_of_le_of_ne (by omega) fun e => hpi (Fin.ext e))) 0 a (Nat.zero_le _)
    ⟨fun _ _ _ => rfl, fun _ _ => rfl, fun i hi => absurd hi (Nat.not_lt_zero _)⟩
  exact ⟨b, hb, h1, fun i hi => h2 i hi, fun i hi => h3 i hi⟩

theorem luLower_run (j : Fin n) (vv : Fin n → ℝ) (hv : ∀ i, 0 < vv i) (a : Matrix (Fin n) (Fin n) 𝕜) (im0 : Option (Fin n)) :
    ∃ b big im, luLower j vv a im0 = some (b, big, some im) ∧ j ≤ im ∧ (∀ i c, c ≠ j → b i c = a i c) ∧
      (∀ i, i < j → b i j = a i j) ∧ (∀ i, j ≤ i → a i j = psum (fun k => b i k * b k j) j.val + b i j) ∧
      ∀ i, j ≤ i → vv i * ‖b i j‖ ≤ vv im * ‖b im j‖ := by
  obtain ⟨s, hs, h1, h2, h3, h4, h5, h6⟩ := forLoop_run' (n := n) (hi := n)
    (fun t (s : Matrix (Fin n) (Fin n) 𝕜 × ℝ × Option (Fin n)) =>
      (∀ i c, c ≠ j → s.1 i c = a i c) ∧ (∀ i, i < j → s.1 i j = a i j) ∧ (∀ i : Fin n, t ≤ i.val → s.1 i j = a i j) ∧
      (∀ i : Fin n, j ≤ i → i.val < t → a i j = psum (fun k => s.1 i k * s.1 k j) j.val + s.1 i j) ∧
      (∀ i : Fin n, j ≤ i → i.val < t → vv i * ‖s.1 i j‖ ≤ s.2.1) ∧
      (t = j.val ∧ s.2.1 = 0 ∨ ∃ im, s.2.2 = some im ∧ j ≤ im ∧ im.val < t ∧ s.2.1 = vv im * ‖s.1 im j‖))
    (fun i (s : Matrix (Fin n) (Fin n) 𝕜 × ℝ × Option (Fin n)) =>
      (forLoop n j.val (fun k (csum : 𝕜) => some (csum - s.1 i k * s.1 k j)) 0 (s.1 i j)).map fun csum =>
        let dum := vv i * ‖csum‖
        if dum ≥ s.2.1 then (setE s.1 i j csum, dum, some i) else (setE s.1 i j csum, s.2.1, s.2.2)) le_rfl j.val
    (by
      rintro i ⟨b, big, im⟩ hji _ ⟨h1, h2, h3, h4, h5, h6⟩
      have hji' : j ≤ i := hji
      obtain ⟨cs, hcs, hP⟩ := forLoop_run (n := n) (hi := j.val)
        (fun t (c : 𝕜) => c = b i j - psum (fun k => b i k * b k j) t)
        (fun k (csum : 𝕜) => some (csum - b i k * b k j)) j.isLt.le
        (by
          intro k c _ hc
          refine ⟨_, rfl, ?_⟩
          rw [hc, psum_succ]; ring) 0 (b i j) (Nat.zero_le _) (by rw [psum_zero, sub_zero])
      dsimp only at h1 h2 h3 h4 h5 h6 ⊢
      rw [hcs, Option.map_some]
      refine ⟨_, rfl, ?_⟩
      have hcol : ∀ p q, q ≠ j → setE b i j cs p q = b p q := fun p q hq => setE_ne _ _ _ _ _ _ (fun h => hq h.2)
      have hrow : ∀ p q, p ≠ i → setE b i j cs p q = b p q := fun p q hp => setE_ne _ _ _ _ _ _ (fun h => hp h.1)
      have hsum : ∀ p, psum (fun k => setE b i j cs p k * setE b i j cs k j) j.val = psum (fun k => b p k * b k j) j.val := by
        intro p
        apply psum_congr
        intro k hk
        rw [hcol p k (fun e => by subst e; omega), hrow k j (fun e => by subst e; omega)]
      have q1 : ∀ p c, c ≠ j → setE b i j cs p c = a p c := fun p c hc => by rw [hcol p c hc, h1 p c hc]
      have q2 : ∀ p, p < j → setE b i j cs p j = a p j := fun p hp => by
        rw [hrow p j (fun e => by subst e; exact absurd hp hji'.not_gt), h2 p hp]
      have q3 : ∀ p : Fin n, i.val + 1 ≤ p.val → setE b i j cs p j = a p j := fun p hp => by
        rw [hrow p j (fun e => by subst e; omega), h3 p (by omega)]
      have q4 : ∀ p : Fin n, j ≤ p → p.val < i.val + 1 →
          a p j = psum (fun k => setE b i j cs p k * setE b i j cs k j) j.val + setE b i j cs p j := by
        intro p hjp hp
        rw [hsum]
        by_cases hpi : p = i
        · subst hpi; rw [setE_same, hP, h3 p le_rfl]; ring
        · rw [hrow p j hpi]
          exact h4 p hjp (lt_of_le_of_ne (by omega) fun e => hpi (Fin.ext e))
      have old : ∀ p : Fin n, j ≤ p → p.val < i.val + 1 → p ≠ i → vv p * ‖setE b i j cs p j‖ ≤ big := by
        intro p hjp hp hpi
        rw [hrow p j hpi]
        exact h5 p hjp (lt_of_le_of_ne (by omega) fun e => hpi (Fin.ext e))
      by_cases hd : vv i * ‖cs‖ ≥ big
      · rw [if_pos hd]
        refine ⟨q1, q2, q3, q4, ?_, Or.inr ⟨i, rfl, hji', by omega, by dsimp only; rw [setE_same]⟩⟩
        intro p hjp hp
        dsimp only
        by_cases hpi : p = i
        · subst hpi; rw [setE_same]
        · exact (old p hjp hp hpi).trans hd
      · rw [if_neg hd]
        refine ⟨q1, q2, q3, q4, ?_, Or.inr ?_⟩
        · intro p hjp hp
          dsimp only
          by_cases hpi : p = i
          · subst hpi; rw [setE_same]; exact (not_le.1 hd).le
          · exact old p hjp hp hpi
        · rcases h6 with ⟨_, h0⟩ | ⟨im', e1, e2, e3, e4⟩
          · exfalso
            apply hd
            rw [h0]
            exact mul_nonneg (hv i).le (norm_nonneg _)
          · exact ⟨im', e1, e2, by omega, by dsimp only; rw [hrow im' j (fun e => by subst e; omega)]; exact e4⟩)
    (a, 0, im0) j.isLt.le ⟨fun _ _ _ => rfl, fun _ _ => rfl, fun _ _ => rfl, fun i h h' => absurd h' (not_lt.2 h),
      fun i h h' => absurd h' (not_lt.2 h), Or.inl ⟨rfl, rfl⟩⟩
  rcases h6 with ⟨e, _⟩ | ⟨im, e1, e2, e3, e4⟩
  · exact absurd e j.isLt.ne'
  · refine ⟨s.1, s.2.1, im, ?_, e2, h1, h2, fun i hi => h4 i hi i.isLt, fun i hi => ?_⟩
    · unfold luLower
      rw [hs, ← e1]
    · rw [← e4]; exact h5 i hi i.isLt

theorem luScale_run (j : Fin n) (a : Matrix (Fin n) (Fin n) 𝕜) (h0 : a j j ≠ 0) :
    ∃ b, luScale j a = some b ∧ (∀ i c, c ≠ j → b i c = a i c) ∧ (∀ i, i ≤ j → b i j = a i j) ∧
      ∀ i, j < i → b i j * b j j = a i j := by
  unfold luScale
  by_cases hj : j.val ≠ n - 1
  · rw [if_pos hj, div?_some h0, Option.bind_some]
    obtain ⟨b, hb, h1, h2, h3⟩ := forLoop_run' (n := n) (hi := n)
      (fun t (b : Matrix (Fin n) (Fin n) 𝕜) => (∀ i c, c ≠ j → b i c = a i c) ∧
        (∀ i : Fin n, i ≤ j ∨ t ≤ i.val → b i j = a i j) ∧ ∀ i : Fin n, j < i → i.val < t → b i j = a i j * (1 / a j j))
      (fun i a' => some (setE a' i j (a' i j * (1 / a j j)))) le_rfl (j.val + 1)
      (by
        rintro i b hji _ ⟨h1, h2, h3⟩
        refine ⟨_, rfl, ?_, ?_, ?_⟩
        · intro p c hc; rw [setE_ne _ _ _ _ _ _ (fun h => hc h.2), h1 p c hc]
        · intro p hp
          have hpi : p ≠ i := by
            rintro rfl
            rcases hp with hp | hp
            · have : p.val ≤ j.val := hp
              omega
            · omega
          rw [setE_ne _ _ _ _ _ _ (fun h => hpi h.1)]
          exact h2 p (hp.imp id fun h => by omega)
        · intro p hjp hp
          by_cases hpi : p = i
          · subst hpi; rw [setE_same, h2 p (Or.inr le_rfl)]
          · rw [setE_ne _ _ _ _ _ _ (fun h => hpi h.1)]
            exact h3 p hjp (lt_of_le_of_ne (by omega) fun e => hpi (Fin.ext e))) a (by omega)
      ⟨fun _ _ _ => rfl, fun _ _ => rfl, fun i h h' => by
        have : j.val < i.val := h
        omega⟩
    refine ⟨b, hb, h1, fun i hi => h2 i (Or.inl hi), ?_⟩
    intro i hi
    rw [h3 i hi i.isLt, h2 j (Or.inl le_rfl)]
    field_simp
  · rw [if_neg hj]
    refine ⟨a, rfl, fun _ _ _ => rfl, fun _ _ => rfl, ?_⟩
    intro i hi
    have : j.val < i.val := hi
    have := i.isLt
    omega

/-- The factors of the first `j` columns of `A`, in the matrix `a`; the other columns are those of `A`. -/
structure LuInv (A a : Matrix (Fin n) (Fin n) 𝕜) (j : ℕ) : Prop where
  done : ∀ i c : Fin n, c.val < j → A i c = psum (fun k => a i k * a k c) (min i.val c.val) + if i ≤ c then a i c else a i c * a c c
  rest : ∀ i c : Fin n, j ≤ c.val → A i c = a i c

theorem psum_low {a : Matrix (Fin n) (Fin n) 𝕜} {i c : Fin n} {j : ℕ} (hc : c.val < j) :
    psum (fun k => a i k * a k c) (min i.val c.val) + (if i ≤ c then a i c else a i c * a c c) =
      psum (fun k => lowM a i k * upM a k c) j := by
  rw [← low_mul_up, Matrix.mul_apply, psum_ite]
  apply Finset.sum_congr rfl
  intro k _
  by_cases hk : k.val < j
  · rw [if_pos hk]
  · rw [if_neg hk]
    have : ¬ k ≤ c := by
      intro h
      have : k.val ≤ c.val := h
      omega
    simp only [upM, Matrix.of_apply]
    rw [if_neg this, mul_zero]

theorem luColumns_run (A0 : Matrix (Fin n) (Fin n) 𝕜) (j : ℕ) (hj : j ≤ n) (s : LuState 𝕜 n) (im0 : Option (Fin n))
    (A : Matrix (Fin n) (Fin n) 𝕜) (hdet : A0.det = s.d * A.det) (hv : ∀ i, 0 < s.vv i) (hA : LuInv A s.a j) :
    luColumns j s im0 = some A0.det := by
  rw [luColumns]
  by_cases h : j < n
  · rw [dif_pos h]
    obtain ⟨J, hJ⟩ : ∃ J : Fin n, J = ⟨j, h⟩ := ⟨_, rfl⟩
    have hJv : J.val = j := by rw [hJ]
    rw [← hJ]
    obtain ⟨a1, ha1, u1, u2, u3⟩ := luUpper_run J s.a
    obtain ⟨b, big, im, hb, hjim, l1, l2, l3, l4⟩ := luLower_run J s.vv hv a1 im0
    rw [ha1, Option.bind_some, hb, Option.bind_some]
    simp only [Option.bind_some]
    -- the state before the exchange of rows
    have hcols : ∀ i c, c ≠ J → b i c = s.a i c := fun i c hc => by rw [l1 i c hc, u1 i c hc]
    have hQ : ∀ i, A i J = psum (fun k => b i k * b k J) (min i.val J.val) + b i J := by
      intro i
      rw [hA.rest i J (by omega)]
      by_cases hi : i < J
      · have hiv : i.val < J.val := hi
        rw [min_eq_left hiv.le, u3 i hi, l2 i hi]
        congr 1
        apply psum_congr
        intro k hk
        rw [l1 i k (fun e => by subst e; omega), l2 k (show k.val < J.val by omega)]
      · have hi' : J ≤ i := not_lt.1 hi
        have hiv : J.val ≤ i.val := hi'
        rw [min_eq_right hiv, ← u2 i hi', l3 i hi']
    have hdone : ∀ i c : Fin n, c.val < j → A i c = psum (fun k => b i k * b k c) (min i.val c.val) +
        if i ≤ c then b i c else b i c * b c c := by
      intro i c hc
      have hcJ : c ≠ J := fun e => by subst e; omega
      rw [hA.done i c hc, hcols i c hcJ, hcols c c hcJ]
      congr 1
      apply psum_congr
      intro k hk
      have hkc : k.val < c.val := lt_of_lt_of_le hk (min_le_right _ _)
      rw [hcols i k (fun e => by subst e; omega), hcols k c hcJ]
    -- the exchange of rows
    have key : ∀ (s' : LuState 𝕜 n) (A' : Matrix (Fin n) (Fin n) 𝕜), A0.det = s'.d * A'.det → (∀ i, 0 < s'.vv i) →
        (∀ i, A' i J = psum (fun k => s'.a i k * s'.a k J) (min i.val J.val) + s'.a i J) →
        (∀ i c : Fin n, c.val < j → A' i c = psum (fun k => s'.a i k * s'.a k c) (min i.val c.val) +
          if i ≤ c then s'.a i c else s'.a i c * s'.a c c) →
        (∀ i c : Fin n, J < c → A' i c = s'.a i c) →
        (s'.a J J = 0 → ∀ i, J ≤ i → s'.a i J = 0) →
        (open Classical in if s'.a J J = 0 then some 0
          else (luScale J s'.a).bind fun a' => luColumns (j + 1) { s' with a := a' } (some im)) = some A0.det := by
      intro s' A' k1 k2 k3 k4 k5 k6
      by_cases hz : s'.a J J = 0
      · rw [if_pos hz]
        have hz' := k6 hz
        have : A'.det = 0 := by
          apply det_zero_of_factor A' J (fun i k => lowM s'.a i k) (fun k c => upM s'.a k c)
          intro i c hc
          by_cases hcJ : c = J
          · subst hcJ
            rw [k3 i]
            by_cases hi : i < c
            · have hiv : i.val < c.val := hi
              have e := psum_succ (fun k => lowM s'.a i k * upM s'.a k c) i
              have hle : psum (fun k => lowM s'.a i k * upM s'.a k c) c.val = psum (fun k => lowM s'.a i k * upM s'.a k c) (i.val + 1) := by
                rw [psum_ite, psum_ite]
                apply Finset.sum_congr rfl
                intro k _
                by_cases hk : k.val < i.val + 1
                · rw [if_pos hk, if_pos (by omega)]
                · rw [if_neg hk]
                  have hki : i < k := show i.val < k.val by omega
                  simp only [lowM, Matrix.of_apply]
                  rw [if_neg hki.not_gt, if_neg hki.ne', zero_mul, ite_self]
              rw [hle, e, min_eq_left hiv.le]
              congr 1
              · apply psum_congr
                intro k hk
                have hki : k < i := hk
                simp only [lowM, upM, Matrix.of_apply]
                rw [if_pos hki, if_pos (hki.trans hi).le]
              · simp only [lowM, upM, Matrix.of_apply]
                rw [if_neg (lt_irrefl _), if_pos trivial, if_pos hi.le, one_mul]
            · have hi' : c ≤ i := not_lt.1 hi
              have hiv : c.val ≤ i.val := hi'
              rw [min_eq_right hiv, hz' i hi', add_zero]
              apply psum_congr
              intro k hk
              have hkc : k < c := hk
              simp only [lowM, upM, Matrix.of_apply]
              rw [if_pos (hkc.trans_le hi'), if_pos hkc.le]
          · have hcv : c.val < j := by
              have : c.val ≤ J.val := hc
              have : c.val ≠ J.val := fun e => hcJ (Fin.ext e)
              omega
            rw [k4 i c hcv, psum_low (j := J.val) (by omega)]
        rw [k1, this, mul_zero]
      · rw [if_neg hz]
        obtain ⟨a', ha', c1, c2, c3⟩ := luScale_run J s'.a hz
        rw [ha', Option.bind_some]
        refine luColumns_run A0 (j + 1) (by omega) { s' with a := a' } (some im) A' k1 k2 ⟨?_, ?_⟩
        · intro i c hc
          show A' i c = psum (fun k => a' i k * a' k c) (min i.val c.val) + if i ≤ c then a' i c else a' i c * a' c c
          by_cases hcJ : c = J
          · subst hcJ
            have hsum : psum (fun k => a' i k * a' k c) (min i.val c.val) = psum (fun k => s'.a i k * s'.a k c) (min i.val c.val) := by
              apply psum_congr
              intro k hk
              have hkc : k.val < c.val := lt_of_lt_of_le hk (min_le_right _ _)
              rw [c1 i k (fun e => by subst e; omega), c2 k hkc.le]
            rw [k3 i, hsum]
            congr 1
            by_cases hi : i ≤ c
            · rw [if_pos hi, c2 i hi]
            · rw [if_neg hi, c3 i (not_le.1 hi)]
          · have hcv : c.val < j := by
              have : c.val ≠ J.val := fun e => hcJ (Fin.ext e)
              omega
            rw [k4 i c hcv, c1 i c hcJ, c1 c c hcJ]
            congr 1
            apply psum_congr
            intro k hk
            have hkc : k.val < c.val := lt_of_lt_of_le hk (min_le_right _ _)
            rw [c1 i k (fun e => by subst e; omega), c1 k c hcJ]
        · intro i c hc
          have hJc : J < c := show J.val < c.val by omega
          rw [k5 i c hJc]
          exact (c1 i c hJc.ne').symm
    by_cases him : im = J
    · rw [if_pos him]
      refine key ⟨b, s.d, s.vv⟩ A hdet hv hQ hdone ?_ ?_
      · intro i c hc
        rw [hA.rest i c (by have : J.val < c.val := hc; omega)]
        exact (hcols i c hc.ne').symm
      · intro hz i hi
        have := l4 i hi
        rw [him] at this
        dsimp only at hz
        rw [hz, norm_zero, mul_zero] at this
        have h2 : ‖b i J‖ ≤ 0 := by
          by_contra hn
          exact absurd this (not_le.2 (mul_pos (hv i) (not_le.1 hn)))
        exact norm_le_zero_iff.1 h2
    · rw [if_neg him]
      have sw : ∀ i : Fin n, (i < J → Equiv.swap im J i = i) ∧ (J ≤ i → J ≤ Equiv.swap im J i) := fun i => swap_low hjim le_rfl
      have hmin : ∀ (i c : Fin n), c ≤ J → min (Equiv.swap im J i).val c.val = min i.val c.val := by
        intro i c hc
        by_cases hi : i < J
        · rw [(sw i).1 hi]
        · have h1 : J.val ≤ (Equiv.swap im J i).val := (sw i).2 (not_lt.1 hi)
          have h2 : J.val ≤ i.val := not_lt.1 hi
          have h3 : c.val ≤ J.val := hc
          rw [min_eq_right (by omega), min_eq_right (by omega)]
      refine key ⟨swapRows b im J, -s.d, Function.update s.vv im (s.vv J)⟩ (swapRows A im J) ?_ ?_ ?_ ?_ ?_ ?_
      · rw [det_swapRows A him]
        show A0.det = -s.d * -A.det
        rw [hdet]; ring
      · intro i
        show 0 < Function.update s.vv im (s.vv J) i
        by_cases hi : i = im
        · subst hi; rw [Function.update_self]; exact hv J
        · rw [Function.update_of_ne hi]; exact hv i
      · intro i
        simp only [swapRows_apply]
        rw [hQ, hmin i J le_rfl]
        congr 1
        apply psum_congr
        intro k hk
        rw [(sw k).1 (show k.val < J.val from lt_of_lt_of_le hk (min_le_right _ _))]
      · intro i c hc
        simp only [swapRows_apply]
        have hcJ : c < J := show c.val < J.val by omega
        rw [hdone _ c hc, hmin i c hcJ.le, (sw c).1 hcJ]
        congr 1
        · apply psum_congr
          intro k hk
          have hkc : k.val < c.val := lt_of_lt_of_le hk (min_le_right _ _)
          rw [(sw k).1 (show k.val < J.val by omega)]
        · have : (Equiv.swap im J i ≤ c) ↔ i ≤ c := by
            by_cases hi : i < J
            · rw [(sw i).1 hi]
            · have h1 : J.val ≤ (Equiv.swap im J i).val := (sw i).2 (not_lt.1 hi)
              have h2 : J.val ≤ i.val := not_lt.1 hi
              constructor
              · intro h
                have : (Equiv.swap im J i).val ≤ c.val := h
                omega
              · intro h
                have : i.val ≤ c.val := h
                omega
          simp only [this]
      · intro i c hc
        simp only [swapRows_apply]
        rw [hA.rest _ c (by have : J.val < c.val := hc; omega)]
        exact (hcols _ c hc.ne').symm
      · intro hz i hi
        simp only [swapRows_apply, Equiv.swap_apply_right] at hz ⊢
        have := l4 (Equiv.swap im J i) ((sw i).2 hi)
        rw [hz, norm_zero, mul_zero] at this
        have h2 : ‖b (Equiv.swap im J i) J‖ ≤ 0 := by
          by_contra hn
          exact absurd this (not_le.2 (mul_pos (hv _) (not_le.1 hn)))
        exact norm_le_zero_iff.1 h2
  · rw [dif_neg h]
    have hjn : j = n := by omega
    subst hjn
    have hprod : A.det = ∏ i, s.a i i := by
      have hfac : A = lowM s.a * upM s.a := by
        ext i c
        rw [low_mul_up, hA.done i c c.isLt]
      rw [hfac, Matrix.det_mul, det_lowM, det_upM, one_mul]
    obtain ⟨r, hr, hP⟩ := forLoop_run (n := j) (hi := j)
      (fun t (r : 𝕜) => r = s.d * ∏ i ∈ Finset.univ.filter (fun i : Fin j => i.val < t), s.a i i)
      (fun k r => some (r * s.a k k)) le_rfl
      (by
        intro i r _ hr
        refine ⟨_, rfl, ?_⟩
        have : Finset.univ.filter (fun k : Fin j => k.val < i.val + 1) = insert i (Finset.univ.filter fun k : Fin j => k.val < i.val) := by
          ext k
          simp only [Finset.mem_filter, Finset.mem_univ, true_and, Finset.mem_insert]
          constructor
          · intro h
            by_cases hk : k = i
            · exact Or.inl hk
            · exact Or.inr (lt_of_le_of_ne (by omega) fun h' => hk (Fin.ext h'))
          · rintro (rfl | h) <;> omega
        rw [hr, this, Finset.prod_insert (by simp)]
        ring) 0 s.d (Nat.zero_le _) (by simp)
    rw [hr, hP, hdet, hprod, Finset.filter_true_of_mem (fun i _ => i.isLt)]
termination_by n - j

theorem rowBig_run (a : Matrix (Fin n) (Fin n) 𝕜) (i : Fin n) :
    ∃ big, rowBig a i = some big ∧ 0 ≤ big ∧ ∀ j, RCLike.normSq (a i j) ≤ big := by
  obtain ⟨big, h1, h2, h3⟩ := forLoop_run (n := n) (hi := n)
    (fun t (b : ℝ) => 0 ≤ b ∧ ∀ j : Fin n, j.val < t → RCLike.normSq (a i j) ≤ b)
    (fun j big => some (if RCLike.normSq (a i j) > big then RCLike.normSq (a i j) else big)) le_rfl
    (by
      rintro j b _ ⟨h2, h3⟩
      refine ⟨_, rfl, ?_⟩
      by_cases h : RCLike.normSq (a i j) > b
      · rw [if_pos h]
        refine ⟨h2.trans h.le, fun k hk => ?_⟩
        by_cases hkj : k = j
        · subst hkj; rfl
        · exact (h3 k (lt_of_le_of_ne (by omega) fun e => hkj (Fin.ext e))).trans h.le
      · rw [if_neg h]
        refine ⟨h2, fun k hk => ?_⟩
        by_cases hkj : k = j
        · subst hkj; exact not_lt.1 h
        · exact h3 k (lt_of_le_of_ne (by omega) fun e => hkj (Fin.ext e))) 0 0 (Nat.zero_le _)
    ⟨le_rfl, fun j hj => absurd hj (Nat.not_lt_zero _)⟩
  exact ⟨big, h1, h2, fun j => h3 j j.isLt⟩

/-- C51. `det_lu` gives the determinant, of singular matrices too. -/
theorem C51_det_lu (a : Matrix (Fin n) (Fin n) 𝕜) : detLu a = some a.det := by
  unfold detLu
  obtain ⟨r, hr, hP⟩ := forLoop_run (n := n) (hi := n)
    (fun t (s : Option (Fin n → ℝ)) => match s with
      | none => a.det = 0
      | some vv => ∀ i : Fin n, i.val < t → 0 < vv i)
    (scaleStep a) le_rfl
    (by
      rintro i (_ | vv) _ hs
      · exact ⟨none, rfl, hs⟩
      · obtain ⟨big, hb, h0, hle⟩ := rowBig_run a i
        dsimp only at hs
        rw [scaleStep, hb, Option.map_some]
        refine ⟨_, rfl, ?_⟩
        by_cases hz : big = 0
        · rw [if_pos hz]
          apply Matrix.det_eq_zero_of_row_eq_zero i
          intro j
          have := hle j
          rw [hz] at this
          exact RCLike.normSq_eq_zero.1 (le_antisymm this (RCLike.normSq_nonneg _))
        · rw [if_neg hz]
          intro k hk
          by_cases hki : k = i
          · subst hki
            rw [Function.update_self]
            exact one_div_pos.2 (Real.sqrt_pos.2 (lt_of_le_of_ne h0 (Ne.symm hz)))
          · rw [Function.update_of_ne hki]
            exact hs k (lt_of_le_of_ne (by omega) fun e => hki (Fin.ext e))) 0 (some fun _ => 0) (Nat.zero_le _)
    (fun i hi => absurd hi (Nat.not_lt_zero _))
  rw [hr, Option.bind_some]
  cases r with
  | none =>
    dsimp only at hP ⊢
    rw [hP]
  | some vv =>
    exact luColumns_run a 0 (Nat.zero_le _) ⟨a, 1, vv⟩ none a (by rw [one_mul]) (fun i => hP i i.isLt)
      ⟨fun i c hc => absurd hc (Nat.not_lt_zero _), fun _ _ _ => rfl⟩

/-- C51. The expansion by minors gives the determinant. -/
theorem C51_det_laplace (hn : 0 < n) (a : Matrix (Fin n) (Fin n) 𝕜) : detLaplace n a = some a.det := detLaplace_eq n a hn

/-- C51. `det` gives the determinant for every size. -/
theorem C51_det (hn : 0 < n) (a : Matrix (Fin n) (Fin n) 𝕜) : detAny a = some a.det := by
  unfold detAny
  split_ifs
  · exact C51_det_laplace hn a
  · exact C51_det_lu a

/-! ### LU decomposition -/

theorem luPivot_run (a : Matrix (Fin n) (Fin n) 𝕜) (i : Fin n) :
    ∃ s, luPivot a i = some s ∧ ((∀ k, i ≤ k → a k i = 0) ∨ i ≤ s.2 ∧ a s.2 i ≠ 0) := by
  obtain ⟨s, h1, h2⟩ := forLoop_run' (n := n) (hi := n)
    (fun t (s : ℝ × Fin n) => 0 ≤ s.1 ∧ (s.1 = 0 ∧ (∀ k : Fin n, i ≤ k → k.val < t → a k i = 0) ∨ i ≤ s.2 ∧ a s.2 i ≠ 0))
    (fun k (s : ℝ × Fin n) => some (if s.1 < RCLike.normSq (a k i) then (RCLike.normSq (a k i), k) else s)) le_rfl i.val
    (by
      rintro k s hik _ ⟨h0, h⟩
      refine ⟨_, rfl, ?_⟩
      by_cases hlt : s.1 < RCLike.normSq (a k i)
      · rw [if_pos hlt]
        refine ⟨RCLike.normSq_nonneg _, Or.inr ⟨hik, fun e => ?_⟩⟩
        dsimp only at e
        rw [e, RCLike.normSq_zero] at hlt
        exact absurd hlt (not_lt.2 h0)
      · rw [if_neg hlt]
        refine ⟨h0, ?_⟩
        rcases h with ⟨hz, hk⟩ | h
        · refine Or.inl ⟨hz, fun p hp hpk => ?_⟩
          by_cases hpk' : p = k
          · subst hpk'
            rw [hz] at hlt
            exact RCLike.normSq_eq_zero.1 (le_antisymm (not_lt.1 hlt) (RCLike.normSq_nonneg _))
          · exact hk p hp (lt_of_le_of_ne (by omega) fun e => hpk' (Fin.ext e))
        · exact Or.inr h) (0, ⟨0, Nat.lt_of_le_of_lt (Nat.zero_le _) i.isLt⟩) i.isLt.le
    ⟨le_rfl, Or.inl ⟨rfl, fun k h h' => absurd h' (not_lt.2 h)⟩⟩
  exact ⟨s, h1, h2.2.imp (fun h k hk => h.2 k hk k.isLt) id⟩

/-- Elimination in the rows below row `i`. -/
theorem luElim_run (i : Fin n) (a : Matrix (Fin n) (Fin n) 𝕜) (h0 : a i i ≠ 0) :
    ∃ b, forLoop n n (fun j a => (div? (a j i) (a i i)).bind fun v =>
        forLoop n n (fun k a => some (setE a j k (a j k - a j i * a i k))) (i.val + 1) (setE a j i v)) (i.val + 1) a = some b ∧
      (∀ p c, p ≤ i ∨ c < i → b p c = a p c) ∧ (∀ p, i < p → b p i * b i i = a p i) ∧
      ∀ p c, i < p → i < c → a p c = b p i * b i c + b p c := by
  obtain ⟨b, hb, h1, h2, h3⟩ := forLoop_run' (n := n) (hi := n)
    (fun t (b : Matrix (Fin n) (Fin n) 𝕜) => (∀ p c : Fin n, p ≤ i ∨ c < i ∨ t ≤ p.val → b p c = a p c) ∧
      (∀ p : Fin n, i < p → p.val < t → b p i = a p i / a i i) ∧
      ∀ p c : Fin n, i < p → p.val < t → i < c → b p c = a p c - a p i / a i i * a i c)
    (fun j a => (div? (a j i) (a i i)).bind fun v =>
      forLoop n n (fun k a => some (setE a j k (a j k - a j i * a i k))) (i.val + 1) (setE a j i v)) le_rfl (i.val + 1)
    (by
      rintro j b hij _ ⟨h1, h2, h3⟩
      have hij' : i < j := hij
      have hii : b i i = a i i := h1 i i (Or.inl le_rfl)
      rw [div?_some (by rw [hii]; exact h0), Option.bind_some]
      obtain ⟨b', hb', k1, k2, k3⟩ := forLoop_run' (n := n) (hi := n)
        (fun t (b' : Matrix (Fin n) (Fin n) 𝕜) => (∀ p c, p ≠ j → b' p c = b p c) ∧
          (∀ c : Fin n, c ≤ i ∨ t ≤ c.val → b' j c = setE b j i (b j i / b i i) j c) ∧
          ∀ c : Fin n, i < c → c.val < t → b' j c = b j c - b j i / b i i * b i c)
        (fun k a => some (setE a j k (a j k - a j i * a i k))) le_rfl (i.val + 1)
        (by
          rintro k b' hik _ ⟨k1, k2, k3⟩
          have hik' : i < k := hik
          refine ⟨_, rfl, ?_, ?_, ?_⟩
          · intro p c hp; rw [setE_ne _ _ _ _ _ _ (fun h => hp h.1), k1 p c hp]
          · intro c hc
            have hck : c ≠ k := by
              rintro rfl
              rcases hc with hc | hc
              · exact absurd hc hik'.not_ge
              · omega
            rw [setE_ne _ _ _ _ _ _ (fun h => hck h.2)]
            exact k2 c (hc.imp id fun h => by omega)
          · intro c hic hc
            by_cases hck : c = k
            · subst hck
              rw [setE_same, k2 c (Or.inr le_rfl), k2 i (Or.inl le_rfl), setE_same, k1 i c hij'.ne,
                setE_ne _ _ _ _ _ _ (fun h => hic.ne' h.2)]
            · rw [setE_ne _ _ _ _ _ _ (fun h => hck h.2)]
              exact k3 c hic (lt_of_le_of_ne (by omega) fun e => hck (Fin.ext e)))
        (setE b j i (b j i / b i i)) (by have := i.isLt; omega)
        ⟨fun p c hp => setE_ne _ _ _ _ _ _ (fun h => hp h.1), fun _ _ => rfl, fun c h h' => by
          have : i.val < c.val := h
          omega⟩
      refine ⟨b', hb', ?_, ?_, ?_⟩
      · intro p c hpc
        by_cases hpj : p = j
        · subst hpj
          have hci : c < i := by
            rcases hpc with h | h | h
            · exact absurd h hij'.not_ge
            · exact h
            · omega
          rw [k2 c (Or.inl hci.le), setE_ne _ _ _ _ _ _ (fun h => hci.ne h.2)]
          exact h1 p c (Or.inr (Or.inl hci))
        · rw [k1 p c hpj]
          exact h1 p c (hpc.imp id fun h => h.imp id fun h => by omega)
      · intro p hip hp
        by_cases hpj : p = j
        · subst hpj
          rw [k2 i (Or.inl le_rfl), setE_same, hii, h1 p i (Or.inr (Or.inr le_rfl))]
        · rw [k1 p i hpj]
          exact h2 p hip (lt_of_le_of_ne (by omega) fun e => hpj (Fin.ext e))
      · intro p c hip hp hic
        by_cases hpj : p = j
        · subst hpj
          rw [k3 c hic c.isLt, hii, h1 p c (Or.inr (Or.inr le_rfl)), h1 p i (Or.inr (Or.inr le_rfl)), h1 i c (Or.inl le_rfl)]
        · rw [k1 p c hpj]
          exact h3 p c hip (lt_of_le_of_ne (by omega) fun e => hpj (Fin.ext e)) hic) a (by have := i.isLt; omega)
    ⟨fun _ _ _ => rfl, fun p h h' => by
      have : i.val < p.val := h
      omega, fun p c h h' => by
      have : i.val < p.val := h
      omega⟩
  have hii : b i i = a i i := h1 i i (Or.inl le_rfl)
  refine ⟨b, hb, fun p c h => h1 p c (h.imp id Or.inl), fun p hp => ?_, fun p c hp hc => ?_⟩
  · rw [h2 p hp p.isLt, hii, div_mul_cancel₀ _ h0]
  · rw [h2 p hp p.isLt, h3 p c hp p.isLt hc, h1 i c (Or.inl le_rfl)]
    ring

/-- Factors after the first `i` columns; in the rest is the matrix that is left to decompose. -/
structure LuInv2 (A a : Matrix (Fin n) (Fin n) 𝕜) (i : ℕ) : Prop where
  fac : ∀ p c : Fin n, A p c = psum (fun k => a p k * a k c) (min i (min p.val c.val)) +
    if c.val < i ∧ c < p then a p c * a c c else a p c
  piv : ∀ c : Fin n, c.val < i → a c c ≠ 0

theorem luStep_run (A0 : Matrix (Fin n) (Fin n) 𝕜) (hdet : A0.det ≠ 0) (i : Fin n) (r : LuResult 𝕜 n)
    (hp : Function.Bijective r.p) (hA : LuInv2 (Matrix.of fun p => A0 (r.p p)) r.lu i.val) :
    ∃ r', luStep i r = some r' ∧ Function.Bijective r'.p ∧ LuInv2 (Matrix.of fun p => A0 (r'.p p)) r'.lu (i.val + 1) := by
  obtain ⟨A, hAdef⟩ : ∃ A : Matrix (Fin n) (Fin n) 𝕜, A = Matrix.of fun p => A0 (r.p p) := ⟨_, rfl⟩
  rw [← hAdef] at hA
  have hdA : A.det ≠ 0 := by
    have : A = A0.submatrix (Equiv.ofBijective r.p hp) id := by rw [hAdef]; rfl
    rw [this, Matrix.det_permute]
    apply mul_ne_zero _ hdet
    rcases Int.units_eq_one_or (Equiv.Perm.sign (Equiv.ofBijective r.p hp)) with h | h <;> rw [h] <;> simp
  obtain ⟨s, hs, hpiv⟩ := luPivot_run r.lu i
  -- a pivot exists
  have hpiv' : i ≤ s.2 ∧ r.lu s.2 i ≠ 0 := by
    rcases hpiv with hz | h
    · exfalso
      apply hdA
      apply det_zero_of_factor A i (fun p k => lowM r.lu p k) (fun k c => upM r.lu k c)
      intro p c hc
      rw [hA.fac p c]
      by_cases hci : c = i
      · subst hci
        rw [if_neg (fun h => absurd h.1 (lt_irrefl _))]
        by_cases hpc : p < c
        · have hv : p.val < c.val := hpc
          have e := psum_low (a := r.lu) (i := p) (c := c) (j := c.val + 1) (by omega)
          rw [psum_succ] at e
          have z : lowM r.lu p c * upM r.lu c c = 0 := by
            simp only [lowM, Matrix.of_apply]
            rw [if_neg hpc.not_gt, if_neg hpc.ne', zero_mul]
          rw [z, add_zero, if_pos hpc.le] at e
          rw [← e, show min c.val (min p.val c.val) = min p.val c.val from by omega]
        · have hv : c.val ≤ p.val := not_lt.1 hpc
          rw [hz p (not_lt.1 hpc), add_zero, show min c.val (min p.val c.val) = c.val from by omega]
          apply psum_congr
          intro k hk
          have hkc : k < c := hk
          simp only [lowM, upM, Matrix.of_apply]
          rw [if_pos (hkc.trans_le (not_lt.1 hpc)), if_pos hkc.le]
      · have hlt : c < i := lt_of_le_of_ne hc hci
        have hv : c.val < i.val := hlt
        rw [← psum_low hv, show min i.val (min p.val c.val) = min p.val c.val from by omega]
        congr 1
        by_cases hpc : p ≤ c
        · rw [if_pos hpc, if_neg (fun h => absurd h.2 hpc.not_gt)]
        · rw [if_neg hpc, if_pos ⟨hv, not_le.1 hpc⟩]
    · exact h
  -- after the exchange
  have key : ∀ r' : LuResult 𝕜 n, Function.Bijective r'.p → LuInv2 (Matrix.of fun p => A0 (r'.p p)) r'.lu i.val → r'.lu i i ≠ 0 →
      ∃ r'', ((forLoop n n (fun j a => (div? (a j i) (a i i)).bind fun v =>
        forLoop n n (fun k a => some (setE a j k (a j k - a j i * a i k))) (i.val + 1) (setE a j i v))
        (i.val + 1) r'.lu).map fun a => (⟨a, r'.p⟩ : LuResult 𝕜 n)) = some r'' ∧ Function.Bijective r''.p ∧
        LuInv2 (Matrix.of fun p => A0 (r''.p p)) r''.lu (i.val + 1) := by
    intro r' hb hI h0
    obtain ⟨b, hb', h1, h2, h3⟩ := luElim_run i r'.lu h0
    rw [hb', Option.map_some]
    refine ⟨_, rfl, hb, ⟨?_, ?_⟩⟩
    · intro p c
      dsimp only
      rw [hI.fac p c]
      have frame : ∀ t, t ≤ i.val → t ≤ min p.val c.val → psum (fun k => r'.lu p k * r'.lu k c) t = psum (fun k => b p k * b k c) t := by
        intro t ht1 ht2
        apply psum_congr
        intro k hk
        have hki : k < i := show k.val < i.val by omega
        rw [h1 p k (Or.inr hki), h1 k c (Or.inl hki.le)]
      have hii : b i i = r'.lu i i := h1 i i (Or.inl le_rfl)
      by_cases hpi : p ≤ i
      · have hpv : p.val ≤ i.val := hpi
        rw [show min (i.val + 1) (min p.val c.val) = min i.val (min p.val c.val) from by omega,
          frame _ (min_le_left _ _) (min_le_right _ _), h1 p c (Or.inl hpi)]
        congr 1
        by_cases hcp : c < p
        · have : c.val < p.val := hcp
          rw [if_pos ⟨by omega, hcp⟩, if_pos ⟨by omega, hcp⟩, h1 c c (Or.inl (hcp.trans_le hpi).le)]
        · rw [if_neg (fun h => hcp h.2), if_neg (fun h => hcp h.2)]
      · have hpi' : i < p := not_le.1 hpi
        have hpv : i.val < p.val := hpi'
        rcases lt_trichotomy c i with hc | hc | hc
        · have hcv : c.val < i.val := hc
          rw [show min (i.val + 1) (min p.val c.val) = min i.val (min p.val c.val) from by omega,
            frame _ (min_le_left _ _) (min_le_right _ _), h1 p c (Or.inr hc), h1 c c (Or.inl hc.le)]
          congr 1
          rw [if_pos ⟨hcv, hc.trans hpi'⟩, if_pos ⟨by omega, hc.trans hpi'⟩]
        · subst hc
          rw [show min (c.val + 1) (min p.val c.val) = min c.val (min p.val c.val) from by omega,
            frame _ (min_le_left _ _) (min_le_right _ _), if_neg (fun h => absurd h.1 (lt_irrefl _)),
            if_pos ⟨Nat.lt_succ_self _, hpi'⟩, h2 p hpi']
        · have hcv : i.val < c.val := hc
          rw [show min (i.val + 1) (min p.val c.val) = i.val + 1 from by omega, show min i.val (min p.val c.val) = i.val from by omega,
            psum_succ, frame _ le_rfl (by omega), if_neg (fun h => absurd h.1 (by omega)), if_neg (fun h => absurd h.1 (by omega)),
            h3 p c hpi' hc, ← add_assoc]
    · intro c hc
      dsimp only
      by_cases hci : c = i
      · subst hci; rw [h1 c c (Or.inl le_rfl)]; exact h0
      · have hlt : c < i := lt_of_le_of_ne (show c.val ≤ i.val by omega) hci
        rw [h1 c c (Or.inl hlt.le)]
        exact hI.piv c hlt
  unfold luStep
  rw [hs, Option.bind_some]
  dsimp only
  by_cases hsi : s.2 = i
  · rw [if_neg (by simpa using hsi)]
    exact key r hp (by rw [← hAdef]; exact hA) (by have := hpiv'.2; rwa [hsi] at this)
  · rw [if_pos hsi]
    have sw : ∀ p : Fin n, (p < i → Equiv.swap i s.2 p = p) ∧ (i ≤ p → i ≤ Equiv.swap i s.2 p) := fun p => swap_low le_rfl hpiv'.1
    have hle : ∀ (p c : Fin n), min i.val (min (Equiv.swap i s.2 p).val c.val) = min i.val (min p.val c.val) := by
      intro p c
      by_cases hpi : p < i
      · rw [(sw p).1 hpi]
      · have h1 : i.val ≤ (Equiv.swap i s.2 p).val := (sw p).2 (not_lt.1 hpi)
        have h2 : i.val ≤ p.val := not_lt.1 hpi
        omega
    refine key ⟨swapRows r.lu i s.2, r.p ∘ Equiv.swap i s.2⟩ (hp.comp (Equiv.swap i s.2).bijective) ⟨?_, ?_⟩ ?_
    · intro p c
      have e : (Matrix.of fun p => A0 ((r.p ∘ Equiv.swap i s.2) p)) p c = A (Equiv.swap i s.2 p) c := by rw [hAdef]; rfl
      dsimp only
      rw [e, hA.fac, hle]
      simp only [swapRows_apply]
      congr 1
      · apply psum_congr
        intro k hk
        rw [(sw k).1 (show k.val < i.val from lt_of_lt_of_le hk (min_le_left _ _))]
      · by_cases hc : c.val < i.val
        · have hci : c < i := hc
          rw [(sw c).1 hci]
          have : (c < Equiv.swap i s.2 p) ↔ c < p := by
            by_cases hpi : p < i
            · rw [(sw p).1 hpi]
            · have h1 : i.val ≤ (Equiv.swap i s.2 p).val := (sw p).2 (not_lt.1 hpi)
              have h2 : i.val ≤ p.val := not_lt.1 hpi
              constructor
              · intro _; show c.val < p.val; omega
              · intro _; show c.val < (Equiv.swap i s.2 p).val; omega
          simp only [this]
        · rw [if_neg (fun h => hc h.1), if_neg (fun h => hc h.1)]
    · intro c hc
      show r.lu (Equiv.swap i s.2 c) c ≠ 0
      rw [(sw c).1 hc]
      exact hA.piv c hc
    · show r.lu (Equiv.swap i s.2 i) i ≠ 0
      rw [Equiv.swap_apply_left]
      exact hpiv'.2

/-- The decomposition of a regular matrix. -/
theorem luDecompose_run (A : Matrix (Fin n) (Fin n) 𝕜) (hdet : A.det ≠ 0) :
    ∃ r, luDecompose A = some r ∧ Function.Bijective r.p ∧ (Matrix.of fun p => A (r.p p)) = lowM r.lu * upM r.lu ∧
      ∀ c, r.lu c c ≠ 0 := by
  obtain ⟨r, h1, h2, h3⟩ := forLoop_run (n := n) (hi := n)
    (fun t (r : LuResult 𝕜 n) => Function.Bijective r.p ∧ LuInv2 (Matrix.of fun p => A (r.p p)) r.lu t) luStep le_rfl
    (by
      rintro i r _ ⟨hp, hI⟩
      exact luStep_run A hdet i r hp hI) 0 ⟨A, id⟩ (Nat.zero_le _)
    ⟨Function.bijective_id, ⟨fun p c => by
      rw [Nat.zero_min, psum_zero, zero_add, if_neg (fun h => absurd h.1 (Nat.not_lt_zero _))]; rfl,
      fun c hc => absurd hc (Nat.not_lt_zero _)⟩⟩
  refine ⟨r, h1, h2, ?_, fun c => h3.piv c c.isLt⟩
  ext p c
  rw [low_mul_up, h3.fac p c, show min n (min p.val c.val) = min p.val c.val from by have := p.isLt; omega]
  congr 1
  by_cases hpc : p ≤ c
  · rw [if_pos hpc, if_neg (fun h => absurd h.2 hpc.not_gt)]
  · rw [if_neg hpc, if_pos ⟨c.isLt, not_le.1 hpc⟩]

theorem luForward_run (lu : Matrix (Fin n) (Fin n) 𝕜) (b : Fin n → 𝕜) :
    ∃ y, luForward lu b = some y ∧ (lowM lu).mulVec y = b := by
  obtain ⟨y, h1, h2⟩ := forLoop_run (n := n) (hi := n)
    (fun t (y : Fin n → 𝕜) => ∀ i : Fin n, i.val < t → b i = psum (fun k => lu i k * y k) i.val + y i)
    (fun i r => forLoop n i.val (fun k r => some (Function.update r i (r i - lu i k * r k))) 0 (Function.update r i (b i))) le_rfl
    (by
      intro i y _ hy
      obtain ⟨y', hy', hP⟩ := forLoop_run (n := n) (hi := i.val)
        (fun t (y' : Fin n → 𝕜) => y' = Function.update y i (b i - psum (fun k => lu i k * y k) t))
        (fun k r => some (Function.update r i (r i - lu i k * r k))) i.isLt.le
        (by
          intro k y' hk e
          refine ⟨_, rfl, ?_⟩
          have hki : k ≠ i := fun e => by subst e; exact lt_irrefl _ hk
          subst e
          rw [Function.update_idem, Function.update_self, Function.update_of_ne hki, psum_succ]
          congr 1; ring) 0 (Function.update y i (b i)) (Nat.zero_le _) (by rw [psum_zero, sub_zero])
      refine ⟨y', hy', ?_⟩
      subst hP
      intro p hp
      have hsum : psum (fun k => lu p k * Function.update y i (b i - psum (fun k => lu i k * y k) i.val) k) p.val =
          psum (fun k => lu p k * y k) p.val := by
        apply psum_congr
        intro k hk
        rw [Function.update_of_ne (fun e => by subst e; omega)]
      rw [hsum]
      by_cases hpi : p = i
      · subst hpi; rw [Function.update_self]; ring
      · rw [Function.update_of_ne hpi]
        exact hy p (lt_of_le_of_ne (by omega) fun e => hpi (Fin.ext e))) 0 (fun _ => 0) (Nat.zero_le _)
    (fun i hi => absurd hi (Nat.not_lt_zero _))
  refine ⟨y, h1, ?_⟩
  funext i
  rw [h2 i i.isLt, Matrix.mulVec, dotProduct, psum_ite]
  have : ∀ k, lowM lu i k * y k = (if k.val < i.val then lu i k * y k else 0) + if k = i then y i else 0 := by
    intro k
    simp only [lowM, Matrix.of_apply]
    rcases lt_trichotomy k i with h | h | h
    · rw [if_pos h, if_pos (show k.val < i.val from h), if_neg h.ne, add_zero]
    · subst h; simp
    · rw [if_neg h.not_gt, if_neg h.ne', if_neg (show ¬ k.val < i.val from h.not_gt), if_neg h.ne', zero_mul, add_zero]
  simp only [this]
  rw [Finset.sum_add_distrib, Finset.sum_ite_eq']
  simp

theorem luBackward_run (lu : Matrix (Fin n) (Fin n) 𝕜) (hd : ∀ c, lu c c ≠ 0) (y : Fin n → 𝕜) :
    ∃ x, luBackward lu y = some x ∧ (upM lu).mulVec x = y := by
  obtain ⟨x, h1, h2⟩ := forDown_run (n := n)
    (fun t (x : Fin n → 𝕜) => (∀ i : Fin n, i.val < t → x i = y i) ∧
      ∀ i : Fin n, t ≤ i.val → y i = (∑ k, if i < k then lu i k * x k else 0) + lu i i * x i)
    (fun i r => (forLoop n n (fun k r => some (Function.update r i (r i - lu i k * r k))) (i.val + 1) r).bind
      fun r => (div? (r i) (lu i i)).map fun v => Function.update r i v)
    (by
      rintro i x ⟨hx1, hx2⟩
      obtain ⟨x', hx', hP⟩ := forLoop_run' (n := n) (hi := n)
        (fun t (x' : Fin n → 𝕜) => x' = Function.update x i (x i - ∑ k, if i < k ∧ k.val < t then lu i k * x k else 0))
        (fun k r => some (Function.update r i (r i - lu i k * r k))) le_rfl (i.val + 1)
        (by
          intro k x' hk _ e
          have hik : i < k := hk
          refine ⟨_, rfl, ?_⟩
          subst e
          rw [Function.update_idem, Function.update_self, Function.update_of_ne hik.ne', sub_sub]
          congr 2
          have : ∀ p : Fin n, (if i < p ∧ p.val < k.val + 1 then lu i p * x p else 0) =
              (if i < p ∧ p.val < k.val then lu i p * x p else 0) + if p = k then lu i k * x k else 0 := by
            intro p
            by_cases hpk : p = k
            · subst hpk; simp [hik]
            · have : (p.val < k.val + 1) ↔ p.val < k.val := by
                have : p.val ≠ k.val := fun e => hpk (Fin.ext e)
                omega
              simp [this, hpk]
          simp only [this]
          rw [Finset.sum_add_distrib, Finset.sum_ite_eq']
          simp) x (by have := i.isLt; omega)
        (by
          have : ∀ p : Fin n, ¬ (i < p ∧ p.val < i.val + 1) := by
            rintro p ⟨h, h'⟩
            have : i.val < p.val := h
            omega
          simp only [this, if_false, Finset.sum_const_zero, sub_zero, Function.update_eq_self])
      rw [hx', Option.bind_some, div?_some (hd i), Option.map_some]
      refine ⟨_, rfl, ?_, ?_⟩
      · intro p hp
        rw [Function.update_of_ne (fun e => by subst e; omega), hP, Function.update_of_ne (fun e => by subst e; omega)]
        exact hx1 p (by omega)
      · intro p hp
        have hfin : Function.update x' i (x' i / lu i i) = Function.update x i ((x i - ∑ k, if i < k then lu i k * x k else 0) / lu i i) := by
          rw [hP, Function.update_self, Function.update_idem]
          simp
        rw [hfin]
        have hsum : (∑ k, if p < k then lu p k * Function.update x i ((x i - ∑ k, if i < k then lu i k * x k else 0) / lu i i) k else 0) =
            ∑ k, if p < k then lu p k * x k else 0 := by
          apply Finset.sum_congr rfl
          intro k _
          by_cases hk : p < k
          · have : p.val < k.val := hk
            rw [if_pos hk, if_pos hk, Function.update_of_ne (fun e => by subst e; omega)]
          · rw [if_neg hk, if_neg hk]
        rw [hsum]
        by_cases hpi : p = i
        · subst hpi
          rw [Function.update_self, mul_div_cancel₀ _ (hd p), ← hx1 p (Nat.lt_succ_self _)]; ring
        · rw [Function.update_of_ne hpi]
          exact hx2 p (by
            have : p.val ≠ i.val := fun e => hpi (Fin.ext e)
            omega)) n le_rfl y ⟨fun _ _ => rfl, fun i hi => absurd i.isLt (by omega)⟩
  refine ⟨x, h1, ?_⟩
  funext i
  rw [h2.2 i (Nat.zero_le _), Matrix.mulVec, dotProduct]
  have : ∀ k, upM lu i k * x k = (if i < k then lu i k * x k else 0) + if k = i then lu i i * x i else 0 := by
    intro k
    simp only [upM, Matrix.of_apply]
    rcases lt_trichotomy i k with h | h | h
    · rw [if_pos h.le, if_pos h, if_neg h.ne', add_zero]
    · subst h; simp
    · rw [if_neg h.not_ge, if_neg h.not_gt, if_neg h.ne, zero_mul, add_zero]
  simp only [this]
  rw [Finset.sum_add_distrib, Finset.sum_ite_eq']
  simp

theorem solve_run (A : Matrix (Fin n) (Fin n) 𝕜) {r : LuResult 𝕜 n} (hp : Function.Bijective r.p)
    (hf : (Matrix.of fun p => A (r.p p)) = lowM r.lu * upM r.lu) (hd : ∀ c, r.lu c c ≠ 0) (b : Fin n → 𝕜) :
    ∃ x, (luForward r.lu fun i => b (r.p i)).bind (luBackward r.lu) = some x ∧ A.mulVec x = b := by
  obtain ⟨y, hy, h1⟩ := luForward_run r.lu fun i => b (r.p i)
  obtain ⟨x, hx, h2⟩ := luBackward_run r.lu hd y
  refine ⟨x, by rw [hy, Option.bind_some, hx], ?_⟩
  have : (Matrix.of fun p => A (r.p p)).mulVec x = fun i => b (r.p i) := by
    rw [hf, ← Matrix.mulVec_mulVec, h2, h1]
  funext q
  obtain ⟨p, rfl⟩ := hp.2 q
  exact congrFun this p

/-- C52. The decomposition of a regular matrix: `P` is a permutation of the rows, and the permuted matrix is the product of
a lower triangular matrix with unit diagonal and an upper triangular matrix, kept below and above the diagonal. -/
theorem C52_decompose_partial (A : Matrix (Fin n) (Fin n) 𝕜) (hA : A.det ≠ 0) :
    ∃ r, luDecompose A = some r ∧ Function.Bijective r.p ∧
      ∀ i c, A (r.p i) c = ∑ k, (if k < i then r.lu i k else if k = i then 1 else 0) * (if k ≤ c then r.lu k c else 0) := by
  obtain ⟨r, h1, h2, h3, -⟩ := luDecompose_run A hA
  exact ⟨r, h1, h2, fun i c => congrFun (congrFun h3 i) c⟩

/-- C52. `LU_solve` solves the equation for a regular matrix. -/
theorem C52_solve_partial (A : Matrix (Fin n) (Fin n) 𝕜) (hA : A.det ≠ 0) (b : Fin n → 𝕜) :
    ∃ x, ((luDecompose A).bind fun r => r.solve b) = some x ∧ A.mulVec x = b := by
  obtain ⟨r, h1, h2, h3, h4⟩ := luDecompose_run A hA
  rw [h1, Option.bind_some]
  exact solve_run A h2 h3 h4 b

/-- C52. `LU_invert` gives the inverse of a regular matrix. -/
theorem C52_invert_partial (A : Matrix (Fin n) (Fin n) 𝕜) (hA : A.det ≠ 0) :
    ((luDecompose A).bind fun r => r.invert) = some A⁻¹ := by
  obtain ⟨r, h1, h2, h3, h4⟩ := luDecompose_run A hA
  rw [h1, Option.bind_some]
  have hcol := fun j : Fin n => solve_run A h2 h3 h4 (fun i => if i = j then 1 else 0)
  choose x hx hAx using hcol
  unfold LuResult.invert
  dsimp only
  simp only [hx, Option.isSome_some, implies_true, if_true, Option.getD_some]
  congr 1
  symm
  apply Matrix.inv_eq_right_inv
  ext i j
  rw [Matrix.one_apply, ← congrFun (hAx j) i]
  rfl

/-! ### Singular matrices -/

theorem forLoop_step {S : Type} {n hi lo : ℕ} {f : Fin n → S → Option S} {s : S} (h : lo < hi) (h' : lo < n) :
    forLoop n hi f lo s = (f ⟨lo, h'⟩ s).bind (forLoop n hi f (lo + 1)) := by
  rw [forLoop, dif_pos ⟨h, h'⟩]

theorem forLoop_stop {S : Type} {n hi lo : ℕ} {f : Fin n → S → Option S} {s : S} (h : ¬ lo < hi) :
    forLoop n hi f lo s = some s := by
  rw [forLoop, dif_neg (fun h' => h h'.1)]

/-- A singular matrix. -/
def singM : Matrix (Fin 2) (Fin 2) ℝ := !![1, 2; 2, 4]

theorem singM_lu : luDecompose singM = some ⟨!![1 / 2, 0; 2, 4], id⟩ := by
  have p0 : luPivot singM 0 = some (4, 1) := by
    unfold luPivot
    rw [forLoop_step (by norm_num) (by norm_num), Option.bind_some, forLoop_step (by norm_num) (by norm_num), Option.bind_some,
      forLoop_stop (by norm_num)]
    norm_num [singM, RCLike.normSq_apply]
  have s0 : luStep 0 ⟨singM, id⟩ = some ⟨!![2, 4; 1 / 2, 0], Equiv.swap 0 1⟩ := by
    unfold luStep
    rw [p0, Option.bind_some]
    dsimp only
    rw [if_pos (by decide), forLoop_step (by norm_num) (by norm_num), div?_some (by
      simp [swapRows, singM]), Option.bind_some, forLoop_step (by norm_num) (by norm_num), Option.bind_some,
      forLoop_stop (by norm_num), Option.bind_some, forLoop_stop (by norm_num), Option.map_some]
    congr 2
    ext i j
    fin_cases i <;> fin_cases j <;> norm_num [setE_apply, swapRows, singM]
  have p1 : luPivot (!![2, 4; 1 / 2, 0] : Matrix (Fin 2) (Fin 2) ℝ) 1 = some (0, 0) := by
    unfold luPivot
    rw [forLoop_step (by norm_num) (by norm_num), Option.bind_some, forLoop_stop (by norm_num)]
    norm_num [RCLike.normSq_apply]
  have s1 : luStep 1 ⟨(!![2, 4; 1 / 2, 0] : Matrix (Fin 2) (Fin 2) ℝ), Equiv.swap 0 1⟩ = some ⟨!![1 / 2, 0; 2, 4], id⟩ := by
    unfold luStep
    rw [p1, Option.bind_some]
    dsimp only
    rw [if_pos (by decide), forLoop_stop (by norm_num), Option.map_some]
    congr 2
    · ext i j
      fin_cases i <;> fin_cases j <;> norm_num [swapRows]
    · funext i
      fin_cases i <;> rfl
  unfold luDecompose
  rw [forLoop_step (by norm_num) (by norm_num)]
  have e0 : (⟨0, by norm_num⟩ : Fin 2) = 0 := rfl
  rw [e0, s0, Option.bind_some, forLoop_step (by norm_num) (by norm_num)]
  have e1 : (⟨0 + 1, by norm_num⟩ : Fin 2) = 1 := rfl
  rw [e1, s1, Option.bind_some, forLoop_stop (by norm_num)]

/-- C52. For a singular matrix the decomposition is wrong without a sign of it: the matrix `(1 2; 2 4)` comes back with
order (0, 1) and the factors of `(1/2 0; 1 4)`. -/
theorem C52_decompose_singular : ∃ (A : Matrix (Fin 2) (Fin 2) ℝ) (r : LuResult ℝ 2), luDecompose A = some r ∧
    ∀ p : Equiv.Perm (Fin 2), ∃ i c, A (p i) c ≠
      ∑ k, (if k < i then r.lu i k else if k = i then 1 else 0) * (if k ≤ c then r.lu k c else 0) := by
  refine ⟨singM, _, singM_lu, fun p => ⟨0, 0, ?_⟩⟩
  have : singM (p 0) 0 = 1 ∨ singM (p 0) 0 = 2 := by
    generalize p 0 = q
    fin_cases q
    · exact Or.inl (by simp [singM])
    · exact Or.inr (by simp [singM])
  rcases this with h | h <;> rw [h] <;> norm_num [Fin.sum_univ_two]

/-- C52. With that decomposition `LU_solve` returns a vector that does not solve an equation that has solutions, and no
division by zero shows it. -/
theorem C52_solve_singular : ∃ (A : Matrix (Fin 2) (Fin 2) ℝ) (b x : Fin 2 → ℝ), (∃ y, A.mulVec y = b) ∧
    ((luDecompose A).bind fun r => r.solve b) = some x ∧ A.mulVec x ≠ b := by
  refine ⟨singM, ![1, 2], ![2, 0], ⟨![1, 0], ?_⟩, ?_, ?_⟩
  · funext i; fin_cases i <;> norm_num [singM, Matrix.mulVec, dotProduct, Fin.sum_univ_two]
  · rw [singM_lu, Option.bind_some]
    have f : luForward (!![1 / 2, 0; 2, 4] : Matrix (Fin 2) (Fin 2) ℝ) (fun i => ![1, 2] (id i)) = some ![1, 0] := by
      unfold luForward
      rw [forLoop_step (by norm_num) (by norm_num), forLoop_stop (by norm_num), Option.bind_some,
        forLoop_step (by norm_num) (by norm_num), forLoop_step (by norm_num) (by norm_num), Option.bind_some,
        forLoop_stop (by norm_num), Option.bind_some, forLoop_stop (by norm_num)]
      congr 1
      funext i
      fin_cases i <;> norm_num [Function.update_apply]
    have g : luBackward (!![1 / 2, 0; 2, 4] : Matrix (Fin 2) (Fin 2) ℝ) ![1, 0] = some ![2, 0] := by
      unfold luBackward
      rw [forDown, dif_pos (by norm_num), forLoop_stop (by norm_num), Option.bind_some, div?_some (by norm_num), Option.map_some,
        Option.bind_some, forDown, dif_pos (by norm_num), forLoop_step (by norm_num) (by norm_num), Option.bind_some,
        forLoop_stop (by norm_num), Option.bind_some, div?_some (by norm_num), Option.map_some, Option.bind_some, forDown]
      congr 1
      funext i
      fin_cases i <;> norm_num [Function.update_apply]
    unfold LuResult.solve
    dsimp only
    rw [f, Option.bind_some, g]
  · intro h
    have := congrFun h 0
    norm_num [singM, Matrix.mulVec, dotProduct, Fin.sum_univ_two] at this

/-! ### Cases that meet the hypotheses -/

/-- A determinant of size 5 by `det_lu`: the first two rows have to be exchanged. -/
example : detAny (swapRows (1 : Matrix (Fin 5) (Fin 5) ℂ) 0 1) = some (-1) := by
  rw [C51_det (by norm_num), det_swapRows _ (by decide), Matrix.det_one]

/-- A singular matrix has determinant 0, also where all pivots of a column vanish. -/
example : detLu (0 : Matrix (Fin 7) (Fin 7) ℂ) = some 0 := by
  rw [C51_det_lu, Matrix.det_zero]

example : detLaplace 4 (1 : Matrix (Fin 4) (Fin 4) ℝ) = some 1 := by
  rw [C51_det_laplace (by norm_num), Matrix.det_one]

/-- Solution with an exchange of rows: `(0 1; 2 3) x = (1, 5)`. -/
example : (!![0, 1; 2, 3] : Matrix (Fin 2) (Fin 2) ℝ).det ≠ 0 := by simp [Matrix.det_fin_two]

example : ((luDecompose (!![0, 1; 2, 3] : Matrix (Fin 2) (Fin 2) ℝ)).bind fun r => r.solve ![1, 5]) = some ![1, 1] := by
  have h : (!![0, 1; 2, 3] : Matrix (Fin 2) (Fin 2) ℝ).det ≠ 0 := by simp [Matrix.det_fin_two]
  obtain ⟨x, hx, hA⟩ := C52_solve_partial _ h ![1, 5]
  rw [hx]
  have e0 := congrFun hA 0
  have e1 := congrFun hA 1
  simp [Matrix.mulVec, dotProduct, Fin.sum_univ_two] at e0 e1
  congr 1
  funext i
  fin_cases i
  · simp; linarith
  · simpa using e0

end Hila
