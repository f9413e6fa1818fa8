import Verif.Model.FFTReal
import Verif.Props.FFT

/-! # C44: real transforms -/

namespace Hila

variable {n : ℕ}

/-- The site `-x` on the periodic lattice. -/
def negSite (L : Site n) (c : Site n) : Site n := fun d => (L d - c d) % L d

theorem negSite_lt (L : Site n) (c : Site n) (hc : ∀ d, c d < L d) (d : Fin n) :
    negSite L c d < L d := Nat.mod_lt _ (by have := hc d; omega)

theorem negSite_val (L : Site n) (c : Site n) (hc : ∀ d, c d < L d) (d : Fin n) :
    (c d = 0 ∧ negSite L c d = 0) ∨ (0 < c d ∧ negSite L c d = L d - c d) := by
  have h := hc d
  unfold negSite
  rcases Nat.eq_zero_or_pos (c d) with h0 | h0
  · left; rw [h0]; simp
  · right; exact ⟨h0, Nat.mod_eq_of_lt (by omega)⟩

theorem negSite_negSite (L : Site n) (c : Site n) (hc : ∀ d, c d < L d) :
    negSite L (negSite L c) = c := by
  funext d
  have := hc d
  rcases negSite_val L c hc d with h | h <;>
    rcases negSite_val L (negSite L c) (negSite_lt L c hc) d with h' | h' <;> omega

/-- The phases at `-x` are the conjugate phases. -/
theorem ftKernel_neg (s : ℤ) (L k x x' : ℕ) (hL : 0 < L) (h : (x = 0 ∧ x' = 0) ∨ (0 < x ∧ x < L ∧ x' = L - x)) :
    ftKernel s L true k x' = (starRingEnd ℂ) (ftKernel s L true k x) := by
  unfold ftKernel
  simp only [if_true]
  have hLC : (L : ℂ) ≠ 0 := by exact_mod_cast (by omega : L ≠ 0)
  rw [← Complex.exp_conj]
  simp only [map_div₀, map_mul, map_intCast, map_natCast, Complex.conj_I, Complex.conj_ofReal,
    map_ofNat]
  rcases h with ⟨h1, h2⟩ | ⟨h1, h2, h3⟩
  · rw [h1, h2]; simp
  · rw [h3, Complex.exp_eq_exp_iff_exists_int]
    refine ⟨s * k, ?_⟩
    rw [Nat.cast_sub (by omega)]
    push_cast
    field_simp
    ring

theorem ftSpec_conj (L : Site n) (s : ℤ) (f : Site n → ℂ) (k : Site n) :
    (starRingEnd ℂ) (ftSpec L s (fun _ => true) f k) =
      ftSpec L s (fun _ => true) (fun x => (starRingEnd ℂ) (f (negSite L x))) k := by
  unfold ftSpec
  rw [map_sum]
  refine Finset.sum_nbij' (negSite L) (negSite L) ?_ ?_ ?_ ?_ ?_
  · intro x hx; exact (mem_boxSites L _).2 (negSite_lt L x ((mem_boxSites L x).1 hx))
  · intro x hx; exact (mem_boxSites L _).2 (negSite_lt L x ((mem_boxSites L x).1 hx))
  · intro x hx; exact negSite_negSite L x ((mem_boxSites L x).1 hx)
  · intro x hx; exact negSite_negSite L x ((mem_boxSites L x).1 hx)
  · intro x hx
    have hx := (mem_boxSites L x).1 hx
    dsimp only
    rw [negSite_negSite L x hx, map_mul, map_prod]
    congr 1
    refine Finset.prod_congr rfl fun d _ => ?_
    have hd := hx d
    rw [← ftKernel_neg s (L d) (k d) (x d) (negSite L x d) (by omega)]
    rcases negSite_val L x hx d with h | h
    · exact .inl h
    · exact .inr ⟨h.1, hd, h.2⟩

/-- A field with `f(-x) = f(x)*`. -/
def Hermitian (L : Site n) (f : Site n → ℂ) : Prop :=
  ∀ c, (∀ d, c d < L d) → f (negSite L c) = (starRingEnd ℂ) (f c)

theorem ftSpec_real (L : Site n) (s : ℤ) (f : Site n → ℂ) (h : Hermitian L f) (k : Site n) :
    (ftSpec L s (fun _ => true) f k).im = 0 := by
  apply Complex.conj_eq_iff_im.1
  rw [ftSpec_conj]
  apply ftSpec_congr
  intro x hx
  rw [h x hx, Complex.conj_conj]

theorem foldl_some (L c : Site n) (l : List (Fin n)) (v : ℤ) :
    l.foldl (complexToRealStep L c) (some v) = some v := by
  induction l with
  | nil => rfl
  | cons a l ih => exact ih

theorem complexToRealStep_none (L c : Site n) (d : Fin n) : complexToRealStep L c none d =
    if c d > 0 ∧ c d < L d / 2 then some 1 else if c d > L d / 2 then some (-1) else none := rfl

theorem complexToRealSite_neg (L : Site n) (heven : ∀ d, L d % 2 = 0) (c : Site n)
    (hc : ∀ d, c d < L d) : complexToRealSite L (negSite L c) = - complexToRealSite L c := by
  unfold complexToRealSite
  have key : ∀ l : List (Fin n),
      (l.foldl (complexToRealStep L (negSite L c)) none).getD 0 =
      - (l.foldl (complexToRealStep L c) none).getD 0 := by
    intro l
    induction l with
    | nil => rfl
    | cons d l ih =>
      rw [List.foldl_cons, List.foldl_cons, complexToRealStep_none, complexToRealStep_none]
      have h1 := heven d
      have h2 := hc d
      have h3 := negSite_val L c hc d
      by_cases a1 : c d > 0 ∧ c d < L d / 2
      · rw [if_pos a1, if_neg (by omega), if_pos (by omega)]
        rw [foldl_some, foldl_some]
        rfl
      · rw [if_neg a1]
        by_cases a2 : c d > L d / 2
        · rw [if_pos a2, if_pos (by omega)]
          rw [foldl_some, foldl_some]
          rfl
        · rw [if_neg a2, if_neg (by omega), if_neg (by omega)]
          exact ih
  exact key _

theorem complexToRealSite_cases (L : Site n) (c : Site n) :
    complexToRealSite L c = 1 ∨ complexToRealSite L c = -1 ∨ complexToRealSite L c = 0 := by
  unfold complexToRealSite
  have : ∀ (l : List (Fin n)) (a : Option ℤ), (a = none ∨ a = some 1 ∨ a = some (-1)) →
      let r := l.foldl (complexToRealStep L c) a
      r = none ∨ r = some 1 ∨ r = some (-1) := by
    intro l
    induction l with
    | nil => intro a h; exact h
    | cons d l ih =>
      intro a h
      dsimp only
      rw [List.foldl_cons]
      apply ih
      rcases h with rfl | rfl | rfl
      · rw [complexToRealStep_none]
        split
        · right; left; rfl
        · split
          · right; right; rfl
          · left; rfl
      · right; left; rfl
      · right; right; rfl
  rcases this (List.finRange n) none (.inl rfl) with h | h | h <;> rw [h] <;> simp

/-- A site of class 0 is its own mirror image. -/
theorem complexToRealSite_zero (L : Site n) (heven : ∀ d, L d % 2 = 0) (c : Site n)
    (hc : ∀ d, c d < L d) (h0 : complexToRealSite L c = 0) : negSite L c = c := by
  unfold complexToRealSite at h0
  have key : ∀ l : List (Fin n),
      (l.foldl (complexToRealStep L c) none).getD 0 = 0 →
      ∀ d ∈ l, negSite L c d = c d := by
    intro l
    induction l with
    | nil => intro _ d hd; cases hd
    | cons a l ih =>
      intro h
      rw [List.foldl_cons, complexToRealStep_none] at h
      have h1 := heven a
      have h2 := hc a
      have h3 := negSite_val L c hc a
      by_cases a1 : c a > 0 ∧ c a < L a / 2
      · rw [if_pos a1] at h
        rw [foldl_some] at h
        simp at h
      · rw [if_neg a1] at h
        by_cases a2 : c a > L a / 2
        · rw [if_pos a2] at h
          rw [foldl_some] at h
          simp at h
        · rw [if_neg a2] at h
          intro d hd
          rcases List.mem_cons.1 hd with rfl | hd
          · omega
          · exact ih h d hd
  funext d
  exact key _ h0 d (List.mem_finRange d)

theorem symmetrize_hermitian (L : Site n) (heven : ∀ d, L d % 2 = 0) (f rf : Site n → ℂ)
    (hrf : ∀ c, (∀ d, c d < L d) → rf c = f (negSite L c)) : Hermitian L (symmetrize L f rf) := by
  intro c hc
  unfold symmetrize
  dsimp only
  rw [complexToRealSite_neg L heven c hc]
  rcases complexToRealSite_cases L c with h | h | h
  · rw [h, if_neg (by decide), if_pos rfl, if_pos rfl, hrf _ (negSite_lt L c hc), negSite_negSite L c hc]
  · rw [h, if_pos (by decide), if_neg (by decide), if_pos rfl, Complex.conj_conj, hrf c hc]
  · rw [h, if_neg (by decide), if_neg (by decide), if_neg (by decide), if_neg (by decide),
      complexToRealSite_zero L heven c hc h]
    apply Complex.ext <;> simp

/-- The field that `FFT_complex_to_real` transforms: the input where its value is significant, its
real part where only that is significant, and the conjugate of the value at `-x` elsewhere. -/
noncomputable def significantPart (L : Site n) (f : Site n → ℂ) : Site n → ℂ := fun c =>
  if complexToRealSite L c = 1 then f c
  else if complexToRealSite L c = -1 then (starRingEnd ℂ) (f (negSite L c))
  else ((f c).re : ℂ)

/-- **C44 (classification).** Of `x` and `-x` either one is significant and the other ignored, or they
are the same site and only the real part is significant. -/
theorem C44_site_classes (L : Site n) (heven : ∀ d, L d % 2 = 0) (c : Site n) (hc : ∀ d, c d < L d) :
    (complexToRealSite L c = 1 ∧ complexToRealSite L (negSite L c) = -1) ∨
    (complexToRealSite L c = -1 ∧ complexToRealSite L (negSite L c) = 1) ∨
    (complexToRealSite L c = 0 ∧ negSite L c = c) := by
  have h1 := complexToRealSite_neg L heven c hc
  rcases complexToRealSite_cases L c with h | h | h
  · left; exact ⟨h, by omega⟩
  · right; left; exact ⟨h, by omega⟩
  · right; right; exact ⟨h, complexToRealSite_zero L heven c hc h⟩

/-- **C44 (complex to real).** On a lattice with even extents, `FFT_complex_to_real` returns the
Fourier transform of the significant part of its input: this part is Hermitian, so its transform is
real and taking the real part loses nothing. -/
theorem C44_complex_to_real (lay : Layout n) (hw : lay.WF) (hne : NoEmptyRank lay) (hn : 0 < n)
    (heven : ∀ d, lay.L d % 2 = 0) (s : ℤ) (junk junk' : ℕ → ℂ) (uninit uninit' : ℕ → PBuf ℂ)
    (order order' : ℕ → List (Site n)) (ho : Order lay .all order) (ho' : Order lay .all order')
    (f : Site n → ℂ) :
    ∃ out, fftComplexToReal lay.L (fun f => reflectField lay junk uninit order (fun _ => true) f)
        (fun h => (fftField lay 1 s junk' uninit' order' (fun _ => true) (fun c _ => h c)).map
          fun g c => g c 0) f = some out ∧
      Hermitian lay.L (significantPart lay.L f) ∧
      ∀ k, lay.InLattice k →
        (out k : ℂ) = ftSpec lay.L s (fun _ => true) (significantPart lay.L f) k := by
  obtain ⟨rf, h1, h2⟩ := C18_reflect_partial lay hw hne junk uninit order ho (fun _ => true)
    ⟨⟨0, hn⟩, rfl⟩ (fun d _ => .inl (heven d)) f
  obtain ⟨g, h3, h4⟩ := C17_fft_partial lay hw hne 1 s junk' uninit' order' ho' (fun _ => true)
    ⟨⟨0, hn⟩, rfl⟩ (fun c _ => symmetrize lay.L f rf c)
  have hrf : ∀ c, (∀ d, c d < lay.L d) → rf c = f (negSite lay.L c) := by
    intro c hc
    rw [h2 c hc]
    rfl
  have hsig : ∀ c, (∀ d, c d < lay.L d) → symmetrize lay.L f rf c = significantPart lay.L f c := by
    intro c hc
    unfold symmetrize significantPart
    dsimp only
    rw [hrf c hc]
    rfl
  have hherm := symmetrize_hermitian lay.L heven f rf hrf
  refine ⟨fun c => (g c 0).re, ?_, ?_, ?_⟩
  · unfold fftComplexToReal
    rw [if_neg]
    · dsimp only
      rw [h1]
      dsimp only [Option.bind]
      rw [h3]
      rfl
    · simp [heven]
  · intro c hc
    rw [← hsig c hc, ← hsig _ (negSite_lt lay.L c hc)]
    exact hherm c hc
  · intro k hk
    rw [ftSpec_congr lay.L s _ (significantPart lay.L f) (symmetrize lay.L f rf) k
      (fun x hx => (hsig x hx).symm)]
    rw [← h4 k hk 0 one_pos]
    have him := ftSpec_real lay.L s _ hherm k
    rw [← h4 k hk 0 one_pos] at him
    apply Complex.ext
    · simp
    · simp [him]

/-- The `k` and `x` arguments of the kernel play the same role. -/
theorem ftSpec_neg (L : Site n) (s : ℤ) (f : Site n → ℝ) (k : Site n) (hk : ∀ d, k d < L d) :
    ftSpec L s (fun _ => true) (realToComplexInput f) (negSite L k) =
      (starRingEnd ℂ) (ftSpec L s (fun _ => true) (realToComplexInput f) k) := by
  unfold ftSpec
  rw [map_sum]
  refine Finset.sum_congr rfl fun x hx => ?_
  rw [map_mul, map_prod]
  congr 1
  · unfold realToComplexInput; rw [Complex.conj_ofReal]
  · refine Finset.prod_congr rfl fun d _ => ?_
    have hd := hk d
    have sym : ∀ a b, ftKernel s (L d) true a b = ftKernel s (L d) true b a := by
      intro a b; unfold ftKernel; simp only [if_true]; congr 1; ring
    rw [sym, ← sym (x d) (k d),
      ← ftKernel_neg s (L d) (x d) (k d) (negSite L k d) (by omega)]
    rcases negSite_val L k hk d with h | h
    · exact .inl h
    · exact .inr ⟨h.1, hd, h.2⟩

/-- **C44 (real to complex).** The transform of a real field is Hermitian. -/
theorem C44_real_to_complex (lay : Layout n) (hw : lay.WF) (hne : NoEmptyRank lay) (hn : 0 < n)
    (s : ℤ) (junk : ℕ → ℂ) (uninit : ℕ → PBuf ℂ) (order : ℕ → List (Site n))
    (ho : Order lay .all order) (f : Site n → ℝ) :
    ∃ g, fftField lay 1 s junk uninit order (fun _ => true) (fun c _ => realToComplexInput f c) =
        some g ∧ Hermitian lay.L (fun c => g c 0) ∧
      ∀ k, lay.InLattice k → g k 0 = ftSpec lay.L s (fun _ => true) (fun c => (f c : ℂ)) k := by
  obtain ⟨g, h3, h4⟩ := C17_fft_partial lay hw hne 1 s junk uninit order ho (fun _ => true)
    ⟨⟨0, hn⟩, rfl⟩ (fun c _ => realToComplexInput f c)
  refine ⟨g, h3, fun c hc => ?_, fun k hk => h4 k hk 0 one_pos⟩
  dsimp only
  rw [h4 c hc 0 one_pos, h4 _ (negSite_lt lay.L c hc) 0 one_pos]
  exact ftSpec_neg lay.L s f c hc

/-- **C44 (round trip).** On a lattice with even extents, `FFT_real_to_complex` followed by
`FFT_complex_to_real` in the opposite sense multiplies a real field by the volume. -/
theorem C44_round_trip (lay : Layout n) (hw : lay.WF) (hne : NoEmptyRank lay) (hn : 0 < n)
    (heven : ∀ d, lay.L d % 2 = 0) (s : ℤ) (hs : s = 1 ∨ s = -1) (junk junk' junk'' : ℕ → ℂ)
    (uninit uninit' uninit'' : ℕ → PBuf ℂ) (order order' order'' : ℕ → List (Site n))
    (ho : Order lay .all order) (ho' : Order lay .all order') (ho'' : Order lay .all order'')
    (f : Site n → ℝ) :
    ∃ g out, fftField lay 1 s junk uninit order (fun _ => true) (fun c _ => realToComplexInput f c) =
        some g ∧
      fftComplexToReal lay.L (fun f => reflectField lay junk' uninit' order' (fun _ => true) f)
        (fun h => (fftField lay 1 (-s) junk'' uninit'' order'' (fun _ => true) (fun c _ => h c)).map
          fun g c => g c 0) (fun c => g c 0) = some out ∧
      ∀ k, lay.InLattice k → out k = (∏ d, (lay.L d : ℝ)) * f k := by
  obtain ⟨g, h1, h2, h3⟩ := C44_real_to_complex lay hw hne hn s junk uninit order ho f
  obtain ⟨out, h4, _, h5⟩ := C44_complex_to_real lay hw hne hn heven (-s) junk' junk'' uninit' uninit''
    order' order'' ho' ho'' (fun c => g c 0)
  refine ⟨g, out, h1, h4, fun k hk => ?_⟩
  have hsig : ∀ c, (∀ d, c d < lay.L d) →
      significantPart lay.L (fun c => g c 0) c = ftSpec lay.L s (fun _ => true) (fun c => (f c : ℂ)) c := by
    intro c hc
    rw [← h3 c hc]
    unfold significantPart
    rcases C44_site_classes lay.L heven c hc with h | h | h
    · rw [if_pos h.1]
    · rw [if_neg (by rw [h.1]; decide), if_pos h.1, h2 c hc, Complex.conj_conj]
    · rw [if_neg (by rw [h.1]; decide), if_neg (by rw [h.1]; decide)]
      have := h2 c hc
      rw [h.2] at this
      exact (Complex.conj_eq_iff_re.1 this.symm)
  have := h5 k hk
  rw [ftSpec_congr lay.L (-s) _ _ _ k hsig, ftSpec_inverse lay.L s hs _ _ k hk] at this
  simp only [if_true] at this
  apply Complex.ofReal_injective
  rw [this]
  push_cast
  rfl

/-- An 8 x 8 lattice: the classes shown in the documentation. -/
example : complexToRealSite ![8, 8] ![0, 0] = 0 ∧ complexToRealSite ![8, 8] ![4, 0] = 0 ∧
    complexToRealSite ![8, 8] ![4, 1] = 1 ∧ complexToRealSite ![8, 8] ![0, 5] = -1 ∧
    complexToRealSite ![8, 8] ![1, 7] = 1 ∧ complexToRealSite ![8, 8] ![4, 4] = 0 := by
  decide

/-- A 4 x 2 lattice on 3 x 2 ranks meets the hypotheses. -/
def evenLayout2 : Layout 2 := { evenLayout with L := ![4, 2] }

example : evenLayout2.WF ∧ NoEmptyRank evenLayout2 ∧ ∀ d, evenLayout2.L d % 2 = 0 :=
  ⟨{ evenLayout_wf with L_pos := by decide }, by unfold NoEmptyRank; decide, by decide⟩

end Hila
